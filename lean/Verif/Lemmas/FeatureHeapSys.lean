import Verif.Lemmas.FeatureHeap

/-
Programs with references and programs with values.
-/
set_option autoImplicit false

namespace RS
variable {K A B : Type}

/-! ### views commute with reading -/

def Export.map (φ : A → B) : Export A → Export B
  | .single a => .single (a.map φ)
  | .list l => .list (l.map (NArr.map φ))

def AppendArg.map (φ : A → B) : AppendArg A → AppendArg B
  | .ndarray a => .ndarray (a.map φ)
  | .seq l => .seq (l.map (Comp.map φ))
  | .farr g => .farr (g.map φ)
  | .other => .other

theorem exportComps_map (φ : A → B) (len : ℕ) : ∀ as : List (Option (Buf A)),
    exportComps len (as.map (Option.map (Buf.map φ))) =
      (exportComps len as).map (List.map (NArr.map φ))
  | [] => rfl
  | none :: _ => rfl
  | some b :: as => by
    simp only [List.map_cons, Option.map_some, exportComps, Buf.map]
    rw [← List.map_take]
    rw [exportComps_map φ len as]
    match b.rows.take len with
    | [] => cases exportComps len as <;> simp [Except.map, NArr.map, NDVal.map]
    | [x] => cases exportComps len as <;> simp [Except.map, NArr.map]
    | x :: y :: l => cases exportComps len as <;> simp [Except.map, NArr.map, NDVal.map]

theorem export_map (φ : A → B) (f : FArr A) : (f.map φ).export = f.export.map (Export.map φ) := by
  unfold FArr.export FArr.map
  cases f.array with
  | none =>
    simp only [Option.map_none]
    split <;> rfl
  | some as =>
    simp only [Option.map_some, exportComps_map]
    cases exportComps f.len as with
    | error e => rfl
    | ok l =>
      simp only [Except.map]
      match f.shapes.length, l with
      | 0, l => rfl
      | 1, [] => rfl
      | 1, [a] => rfl
      | 1, a :: b :: l => rfl
      | n + 2, l => rfl

theorem comps_map (φ : A → B) (d : AppendArg A) :
    (d.map φ).comps = d.comps.map (List.map (Comp.map φ)) := by
  cases d with
  | other => rfl
  | ndarray a => rfl
  | seq l => rfl
  | farr g =>
    simp only [AppendArg.map, AppendArg.comps, export_map]
    cases g.export with
    | error e => rfl
    | ok x =>
      cases x with
      | single a => rfl
      | list l =>
        simp only [Except.map, Export.map, List.map_map]
        congr 1

theorem lookup_map (φ : A → B) (arrs : List (NArr A)) (l : List (Option ℕ)) :
    l.mapM (lookupComp (arrs.map (NArr.map φ))) =
      (l.mapM (lookupComp arrs)).map (List.map (Comp.map φ)) := by
  have h1 : ∀ o, lookupComp (arrs.map (NArr.map φ)) o = (lookupComp arrs o).map (Comp.map φ) := by
    intro o
    cases o with
    | none => rfl
    | some i => simp [lookupComp, Function.comp_def, Comp.map]
  induction l with
  | nil => rfl
  | cons o l ih =>
    rw [List.mapM_cons, List.mapM_cons, ih, h1]
    cases lookupComp arrs o with
    | none => rfl
    | some d => cases l.mapM (lookupComp arrs) <;> rfl

theorem resolve_map (φ : A → B) (arrs : List (NArr A)) (fas : List (FArr A)) (arg : ArgRef) :
    arg.resolve (arrs.map (NArr.map φ)) (fas.map (FArr.map φ)) =
      (arg.resolve arrs fas).map (AppendArg.map φ) := by
  cases arg with
  | other => rfl
  | ndarray i => simp [ArgRef.resolve, Function.comp_def, AppendArg.map]
  | farr j => simp [ArgRef.resolve, Function.comp_def, AppendArg.map]
  | seq l =>
    simp only [ArgRef.resolve, lookup_map]
    cases l.mapM (lookupComp arrs) <;> rfl

theorem getComp_map (φ : A → B) (len : ℕ) (key : Key) (a : Option (Buf A)) :
    getComp len key (a.map (Buf.map φ)) = (getComp len key a).map (Comp.map φ) := by
  cases a with
  | none => rfl
  | some b =>
    simp only [Option.map_some, getComp, Buf.map, ← List.map_take, List.length_map]
    cases key with
    | int i =>
      simp only
      cases normIndex (b.rows.take len).length i with
      | none => rfl
      | some k =>
        simp only [List.getElem?_map]
        cases (b.rows.take len)[k]? with
        | none => rfl
        | some x => simp [Except.map, Comp.map, NArr.map, NDVal.map]
    | npint i =>
      simp only
      cases normIndex (b.rows.take len).length i with
      | none => rfl
      | some k =>
        simp only [List.getElem?_map]
        cases (b.rows.take len)[k]? with
        | none => rfl
        | some x => cases b.ish <;> simp [Except.map, Comp.map, NArr.map]
    | slice s o t =>
      simp only
      cases sliceIndices (b.rows.take len).length s o t with
      | error e => rfl
      | ok idx =>
        simp only [Except.map, Comp.map, NArr.map, NDVal.map, List.map_filterMap,
          List.getElem?_map]

theorem mapM_getComp_map (φ : A → B) (len : ℕ) (key : Key) (as : List (Option (Buf A))) :
    (as.map (Option.map (Buf.map φ))).mapM (getComp len key) =
      (as.mapM (getComp len key)).map (List.map (Comp.map φ)) := by
  induction as with
  | nil => rfl
  | cons a as ih =>
    rw [List.map_cons, List.mapM_cons, List.mapM_cons, ih, getComp_map]
    cases getComp len key a with
    | error e => rfl
    | ok d => cases as.mapM (getComp len key) <;> rfl

theorem slice_map (φ : A → B) (x : NArr A) (a o s : Option ℤ) :
    (x.map φ).slice a o s = (x.slice a o s).map (NArr.map φ) := by
  unfold NArr.slice
  simp only [NArr.map, NDVal.map_unstack, List.length_map]
  cases x.shape with
  | nil => rfl
  | cons n sh =>
    simp only
    cases sliceIndices x.val.unstack.length a o s with
    | error e => rfl
    | ok idx =>
      simp only [Except.map, NArr.map, NDVal.map, List.map_filterMap, List.getElem?_map]

theorem tailShape_map (φ : A → B) (d : Comp A) : (d.map φ).tailShape = d.tailShape := by
  cases d <;> rfl

/-! ### the first append -/

theorem appendComp_none_map (φ : A → B) (z : A) (z' : B) (len : ℕ) (sh : List ℕ) (d : Comp A) :
    appendComp z' len sh none (d.map φ) =
      ((appendComp z len sh none d).1.map (Buf.map φ), (appendComp z len sh none d).2) := by
  cases d with
  | other => rfl
  | arr x =>
    simp only [Comp.map, NArr.map, appendComp]
    split
    · rfl
    · split
      · simp [Buf.map, NDVal.map_unstack]
      · rfl

theorem hAppendComp_none (zero : K) (h : CellHeap K) (len : ℕ) (sh : List ℕ) (d : Comp ℕ) :
    hAppendComp zero h len sh none d = (h, appendComp 0 len sh none d) := by
  cases d with
  | other => rfl
  | arr x =>
    simp only [hAppendComp, appendComp]
    split
    · rfl
    · split <;> rfl

theorem appendLoop_none_map (φ : A → B) (z : A) (z' : B) (len : ℕ) :
    ∀ (shs : List (List ℕ)) (n : ℕ) (ds : List (Comp A)),
    appendLoop z' len shs (List.replicate n none) (ds.map (Comp.map φ)) =
      ((appendLoop z len shs (List.replicate n none) ds).1.map (Option.map (Buf.map φ)),
        (appendLoop z len shs (List.replicate n none) ds).2)
  | [], n, ds => by simp [appendLoop]
  | sh :: shs, 0, ds => by simp [appendLoop]
  | sh :: shs, n + 1, [] => by simp [appendLoop]
  | sh :: shs, n + 1, d :: ds => by
    have ih := appendLoop_none_map φ z z' len shs n ds
    simp only [List.replicate_succ, List.map_cons, appendLoop, appendComp_none_map φ z z', ih]
    generalize appendComp z len sh none d = x
    obtain ⟨x1, x2⟩ := x
    cases x2 with
    | error e => simp
    | ok k =>
      simp only
      generalize appendLoop z len shs (List.replicate n none) ds = y
      obtain ⟨y1, y2⟩ := y
      cases y2 with
      | error e => rfl
      | ok o => cases o <;> rfl

theorem hAppendLoop_none (zero : K) (h : CellHeap K) (len : ℕ) :
    ∀ (shs : List (List ℕ)) (n : ℕ) (ds : List (Comp ℕ)),
    hAppendLoop zero len h shs (List.replicate n none) ds =
      (h, appendLoop 0 len shs (List.replicate n none) ds)
  | [], n, ds => by simp [appendLoop, hAppendLoop]
  | sh :: shs, 0, ds => by simp [appendLoop, hAppendLoop]
  | sh :: shs, n + 1, [] => by simp [appendLoop, hAppendLoop]
  | sh :: shs, n + 1, d :: ds => by
    have ih := hAppendLoop_none zero h len shs n ds
    simp only [List.replicate_succ, hAppendLoop, appendLoop, hAppendComp_none]
    generalize appendComp 0 len sh none d = x
    obtain ⟨x1, x2⟩ := x
    cases x2 with
    | error e => rfl
    | ok k =>
      simp only
      rw [ih]
      generalize appendLoop 0 len shs (List.replicate n none) ds = y
      obtain ⟨y1, y2⟩ := y
      cases y2 with
      | error e => rfl
      | ok o => cases o <;> rfl

theorem appendComp_none_ok {len : ℕ} {sh : List ℕ} {d : Comp ℕ} {a : Option (Buf ℕ)} {n : ℕ}
    (hd : CompOk d) (h : appendComp 0 len sh none d = (a, .ok n)) :
    ∃ b, a = some b ∧ n = d.count sh ∧ b.rows.length = n ∧ (∀ r ∈ b.rows, HasShape b.ish r) ∧
      ∀ c ∈ cells b.rows, c ∈ compCells d := by
  cases d with
  | other => simp [appendComp] at h
  | arr x =>
    simp only [CompOk] at hd
    simp only [appendComp] at h
    split at h
    · rename_i hl
      simp only [Prod.mk.injEq, Except.ok.injEq] at h
      obtain ⟨rfl, rfl⟩ := h
      refine ⟨_, rfl, by simp [Comp.count, hl], rfl, by simpa using hd, ?_⟩
      simp [cells, compCells]
    · rename_i hl
      split at h
      · rename_i hl'
        simp only [Prod.mk.injEq, Except.ok.injEq] at h
        obtain ⟨rfl, rfl⟩ := h
        match hx : x.shape, hd with
        | [], _ => exact absurd hl' (by simp [hx])
        | m :: s, hd =>
          refine ⟨_, rfl, by simp [Comp.count, hl], rfl, by simpa using hd.unstack.2.2, ?_⟩
          intro c hc
          simp only [compCells]
          rw [hd.unstack.1, ravel_node]; exact hc
      · simp at h

theorem appendLoop_none_ok {len : ℕ} : ∀ {shs : List (List ℕ)} {ds : List (Comp ℕ)}
    {as : List (Option (Buf ℕ))} {o : Option ℕ}, ds.length = shs.length → (∀ d ∈ ds, CompOk d) →
    appendLoop 0 len shs (List.replicate shs.length none) ds = (as, .ok o) →
    ∃ bufs : List (Buf ℕ), as = bufs.map some ∧ bufs.length = shs.length ∧ (o = none ↔ shs = []) ∧
      (∀ b ∈ bufs, ∀ r ∈ b.rows, HasShape b.ish r) ∧
      (∀ b ∈ bufs, ∀ c ∈ cells b.rows, ∃ d ∈ ds, c ∈ compCells d) ∧
      ∀ m, (∀ p ∈ shs.zip ds, p.2.count p.1 = m) →
        (∀ n, o = some n → n = m) ∧ ∀ b ∈ bufs, b.rows.length = m
  | [], ds, as, o, _, _, h => by
    simp [appendLoop] at h
    obtain ⟨rfl, rfl⟩ := h
    exact ⟨[], by simp⟩
  | sh :: shs, d :: ds, as, o, hl, hd, h => by
    simp only [List.length_cons, List.replicate_succ, appendLoop] at h
    generalize hx : appendComp 0 len sh none d = x at h
    obtain ⟨x1, x2⟩ := x
    cases x2 with
    | error e => simp at h
    | ok k =>
      obtain ⟨b, rfl, e1, e2, e3, e4⟩ := appendComp_none_ok (hd d (by simp)) hx
      simp only at h
      generalize hy : appendLoop 0 len shs (List.replicate shs.length none) ds = y at h
      obtain ⟨y1, y2⟩ := y
      cases y2 with
      | error e => simp at h
      | ok o' =>
        obtain ⟨bufs, rfl, f1, f2, f3, f4, f5⟩ := appendLoop_none_ok (by simpa using hl)
          (fun d' hd' => hd d' (by simp [hd'])) hy
        have hres : as = (b :: bufs).map some ∧ o = some (o'.getD k) := by
          cases o' with
          | none => simp at h; simp [← h.1, ← h.2]
          | some j => simp at h; simp [← h.1, ← h.2]
        obtain ⟨rfl, rfl⟩ := hres
        refine ⟨b :: bufs, rfl, by simp [f1], by simp, ?_, ?_, ?_⟩
        · intro b' hb'
          rcases List.mem_cons.1 hb' with rfl | hb'
          · exact e3
          · exact f3 b' hb'
        · intro b' hb' c hc
          rcases List.mem_cons.1 hb' with rfl | hb'
          · exact ⟨d, by simp, e4 c hc⟩
          · obtain ⟨d', hd', hc'⟩ := f4 b' hb' c hc
            exact ⟨d', by simp [hd'], hc'⟩
        · intro m hm
          obtain ⟨g1, g2⟩ := f5 m fun p hp => hm p (by simp [hp])
          have hkm : k = m := by rw [e1]; exact hm (sh, d) (by simp)
          refine ⟨?_, ?_⟩
          · intro n hn
            cases o' with
            | none => simp at hn; omega
            | some j => simp at hn; rw [← hn]; exact g1 j rfl
          · intro b' hb'
            rcases List.mem_cons.1 hb' with rfl | hb'
            · omega
            · exact g2 b' hb'

theorem appendLoop_none_err {len : ℕ} {shs : List (List ℕ)} {ds : List (Comp ℕ)}
    {as : List (Option (Buf ℕ))} {e : PyErr} (hs : shs.length ≤ 1)
    (h : appendLoop 0 len shs (List.replicate shs.length none) ds = (as, .error e)) :
    as = List.replicate shs.length none := by
  match shs, hs with
  | [], _ => simp [appendLoop] at h
  | [sh], _ =>
    cases ds with
    | nil => simp [appendLoop] at h
    | cons d ds =>
      simp only [List.length_singleton, List.replicate_one, appendLoop] at h
      generalize hx : appendComp 0 len sh none d = x at h
      obtain ⟨x1, x2⟩ := x
      cases x2 with
      | ok k => simp at h
      | error e' =>
        simp only [Prod.mk.injEq] at h
        rw [← h.1]
        simp only [List.length_singleton, List.replicate_one, List.cons.injEq, and_true]
        cases d with
        | other => simp [appendComp] at hx; exact hx.1.symm
        | arr x =>
          simp only [appendComp] at hx
          split at hx
          · simp at hx
          · split at hx
            · simp at hx
            · simp at hx; exact hx.1.symm

/-! ### one feature array -/

/-- The buffers of a feature array. -/
def bufsOf (f : FArr ℕ) : List (Buf ℕ) := (f.array.getD []).filterMap id

/-- The spare cells and the cells of the items of a feature array. -/
def FArr.spare (f : FArr ℕ) : List ℕ := spareOf f.len (bufsOf f)
def FArr.vis (f : FArr ℕ) : List ℕ := visOf f.len (bufsOf f)

structure FaOk (next : ℕ) (f : FArr ℕ) : Prop where
  bufs : BufsOk next f.len (bufsOf f)
  full : (f.len = 0 ∧ f.array.getD (List.replicate f.shapes.length none) =
      List.replicate f.shapes.length none) ∨
    (f.array = some ((bufsOf f).map some) ∧ (bufsOf f).length = f.shapes.length)

theorem bufsOf_some (shs : List (List ℕ)) (bufs : List (Buf ℕ)) (n : ℕ) :
    bufsOf ⟨shs, some (bufs.map some), n⟩ = bufs := by
  simp [bufsOf, List.filterMap_map]

theorem bufsOf_none (shs : List (List ℕ)) (m n : ℕ) :
    bufsOf ⟨shs, some (List.replicate m none), n⟩ = [] := by
  simp only [bufsOf, Option.getD_some]
  induction m with
  | zero => rfl
  | succ m ih => simp

theorem BufsOk.nil (next len : ℕ) : BufsOk next len [] :=
  ⟨by simp, by simp, by simp, by simp [spareOf], by simp [spareOf]⟩

theorem FaOk.new (next : ℕ) (shs : List (List ℕ)) : FaOk next (FArr.new shs) :=
  ⟨BufsOk.nil next 0, Or.inl ⟨rfl, rfl⟩⟩

theorem FaOk.mono {next next' : ℕ} {f : FArr ℕ} (h : FaOk next f) (hn : next ≤ next') :
    FaOk next' f := ⟨h.bufs.mono hn, h.full⟩

theorem bufsOf_fresh {f : FArr ℕ} (h : f.array.getD (List.replicate f.shapes.length none) =
    List.replicate f.shapes.length none) : bufsOf f = [] := by
  cases hf : f.array with
  | none => simp [bufsOf, hf]
  | some as =>
    rw [hf, Option.getD_some] at h
    subst h
    simp [bufsOf, hf]

theorem fresh_iff {f : FArr ℕ} (h : f.array.getD (List.replicate f.shapes.length none) =
    List.replicate f.shapes.length none) : f.Fresh := by
  intro as has a ha
  rw [has, Option.getD_some] at h
  subst h
  exact (List.mem_replicate.1 ha).2

theorem map_congr_fa {φ ψ : ℕ → K} {f : FArr ℕ} {next : ℕ} (hf : FaOk next f)
    (h1 : ∀ c ∈ f.spare, φ c = ψ c) (h2 : ∀ c ∈ f.vis, φ c = ψ c) : f.map φ = f.map ψ := by
  unfold FArr.map
  rcases hf.full with ⟨_, h⟩ | ⟨h, _⟩
  · cases hf' : f.array with
    | none => rfl
    | some as =>
      rw [hf', Option.getD_some] at h
      subst h
      simp
  · rw [h]
    simp only [Option.map_some, List.map_map]
    have := bufs_map_congr (len := f.len) h1 h2
    have h' : ∀ χ : ℕ → K, (bufsOf f).map (Option.map (Buf.map χ) ∘ some) =
        ((bufsOf f).map (Buf.map χ)).map some := fun χ => by
      simp [Function.comp_def]
    rw [h', h', this]

/-- The cells become items when `len` grows. -/
theorem BufsOk.more {next len n : ℕ} {bufs : List (Buf ℕ)} (h : BufsOk next len bufs)
    (hn : ∀ b ∈ bufs, len + n ≤ b.rows.length) : BufsOk next (len + n) bufs ∧
    (∀ c ∈ spareOf (len + n) bufs, c ∈ spareOf len bufs) ∧
    ∀ c ∈ visOf (len + n) bufs, c ∈ visOf len bufs ∨ c ∈ spareOf len bufs := by
  have hsub : ∀ b : Buf ℕ, cells (b.rows.drop len) =
      cells ((b.rows.drop len).take n) ++ cells (b.rows.drop (len + n)) := fun b => by
    rw [cells_take_drop (b.rows.drop len) n, List.drop_drop]
  have htake : ∀ b : Buf ℕ, cells (b.rows.take (len + n)) =
      cells (b.rows.take len) ++ cells ((b.rows.drop len).take n) := fun b => by
    rw [List.take_add, cells_append]
  have hp : (spareOf len bufs).Perm ((bufs.flatMap fun b => cells ((b.rows.drop len).take n)) ++
      spareOf (len + n) bufs) := by
    unfold spareOf
    rw [List.flatMap_congr fun b _ => hsub b]
    exact (List.flatMap_append_perm _ _ _).symm
  have hnd := hp.nodup_iff.1 h.nodup
  rw [List.nodup_append] at hnd
  have hv : ∀ c ∈ visOf (len + n) bufs, c ∈ visOf len bufs ∨
      c ∈ bufs.flatMap fun b => cells ((b.rows.drop len).take n) := by
    intro c hc
    obtain ⟨b, hb, hc⟩ := List.mem_flatMap.1 hc
    rw [htake] at hc
    rcases List.mem_append.1 hc with hc | hc
    · exact Or.inl (List.mem_flatMap.2 ⟨b, hb, hc⟩)
    · exact Or.inr (List.mem_flatMap.2 ⟨b, hb, hc⟩)
  have hs : ∀ c ∈ spareOf (len + n) bufs, c ∈ spareOf len bufs := fun c hc =>
    hp.mem_iff.2 (List.mem_append_right _ hc)
  refine ⟨⟨h.shape, h.lt, hn, hnd.2.1, fun c hc hc' => ?_⟩, hs, fun c hc => ?_⟩
  · rcases hv c hc' with hc' | hc'
    · exact h.disj c (hs c hc) hc'
    · exact hnd.2.2 c hc' c hc rfl
  · rcases hv c hc with hc | hc
    · exact Or.inl hc
    · exact Or.inr (hp.mem_iff.2 (List.mem_append_left _ hc))

theorem hAppend_eq (zero : K) (h : CellHeap K) (f : FArr ℕ) (data : AppendArg ℕ) :
    hAppend zero h f data = match data.comps with
      | .error e => (h, f, .error e)
      | .ok l =>
        if f.shapes.length ≠ l.length then
          (h, { f with array := some (f.array.getD (List.replicate f.shapes.length none)) },
            .error .valueError)
        else
          match hAppendLoop zero f.len h f.shapes
            (f.array.getD (List.replicate f.shapes.length none)) l with
          | (h', arrs', .error e) => (h', { f with array := some arrs' }, .error e)
          | (h', arrs', .ok none) => (h', { f with array := some arrs' }, .error .nameError)
          | (h', arrs', .ok (some n)) => (h', ⟨f.shapes, some arrs', f.len + n⟩, .ok ()) := by
  cases data with
  | farr g =>
    simp only [hAppend, AppendArg.comps]
    generalize g.export = x
    rcases x with e | (a | l) <;> rfl
  | _ => rfl

/-- `append` with references and with values. -/
theorem hAppend_spec (zero : K) (h : CellHeap K) (f : FArr ℕ) (data : AppendArg ℕ)
    (hf : FaOk h.next f)
    (hd : ∀ ds, data.comps = .ok ds → ∀ d ∈ ds, CompOk d ∧ (∀ c ∈ compCells d, c < h.next) ∧
      ∀ c ∈ compCells d, c ∉ f.spare)
    (hal : data.Aligned f.shapes)
    (hfirst : f.Fresh → f.shapes.length ≤ 1 ∨ (hAppend zero h f data).2.2 = .ok ()) :
    ∃ h' f' r, hAppend zero h f data = (h', f', r) ∧
      (f.map h.get).append zero (data.map h.get) = (f'.map h'.get, r) ∧
      h.next ≤ h'.next ∧ (∀ a < h.next, a ∉ f.spare → h'.get a = h.get a) ∧ FaOk h'.next f' ∧
      (∀ c ∈ f'.spare, c ∈ f.spare ∨ h.next ≤ c) ∧
      ∀ c ∈ f'.vis, c ∈ f.vis ∨ c ∈ f.spare ∨ h.next ≤ c ∨ f.Fresh ∧
        ∃ ds, data.comps = .ok ds ∧ ∃ d ∈ ds, c ∈ compCells d := by
  rw [FArr.append_eq, comps_map]
  rw [hAppend_eq] at hfirst ⊢
  unfold AppendArg.Aligned at hal
  cases hc : data.comps with
  | error e =>
    exact ⟨h, f, .error e, rfl, rfl, le_rfl, fun _ _ _ => rfl, hf, fun c hc => Or.inl hc,
      fun c hc => Or.inl hc⟩
  | ok ds =>
    rw [hc] at hfirst
    simp only [Except.map]
    have hshapes : (f.map h.get).shapes = f.shapes := rfl
    have hlenf : (f.map h.get).len = f.len := rfl
    rw [hshapes, hlenf]
    simp only [List.length_map]
    have hgetD : (f.map h.get).array.getD (List.replicate f.shapes.length none) =
        (f.array.getD (List.replicate f.shapes.length none)).map (Option.map (Buf.map h.get)) := by
      unfold FArr.map
      cases f.array <;> simp
    rw [hgetD]
    obtain ⟨m, hm⟩ := hal ds hc
    by_cases hl : f.shapes.length ≠ ds.length
    · simp only [if_pos hl]
      refine ⟨h, _, _, rfl, ?_, le_rfl, fun _ _ _ => rfl, ?_, ?_, ?_⟩
      · simp [FArr.map]
      · refine ⟨?_, ?_⟩
        · rcases hf.full with ⟨h1, h2⟩ | ⟨h1, h2⟩
          · rw [h2, bufsOf_none]; exact BufsOk.nil _ _
          · have : ({ f with array := some (f.array.getD (List.replicate f.shapes.length none)) } :
                FArr ℕ) = f := by
              rw [h1, Option.getD_some, ← h1]
            rw [this]; exact hf.bufs
        · rcases hf.full with ⟨h1, h2⟩ | ⟨h1, h2⟩
          · exact Or.inl ⟨h1, by simp only [Option.getD_some]; exact h2⟩
          · have : ({ f with array := some (f.array.getD (List.replicate f.shapes.length none)) } :
                FArr ℕ) = f := by
              rw [h1, Option.getD_some, ← h1]
            rw [this]; exact Or.inr ⟨h1, h2⟩
      all_goals
        have hb : bufsOf { f with array := some (f.array.getD
            (List.replicate f.shapes.length none)) } = bufsOf f := by
          cases hf' : f.array with
          | none =>
            have e1 := bufsOf_none f.shapes f.shapes.length f.len
            simp only [Option.getD_none] at e1 ⊢
            rw [e1]
            simp [bufsOf, hf']
          | some as => simp [bufsOf, hf']
        intro c hc'
        simp only [FArr.spare, FArr.vis, hb] at hc' ⊢
        exact Or.inl hc'
    · simp only [if_neg hl] at hfirst ⊢
      rw [not_not] at hl
      rcases hf.full with ⟨h1, h2⟩ | ⟨h1, h2⟩
      · -- the first append
        have hfresh := fresh_iff h2
        have hfirst := hfirst hfresh
        rw [h2] at hfirst ⊢
        rw [h1] at hfirst ⊢
        simp only [List.map_replicate, Option.map_none]
        rw [hAppendLoop_none] at hfirst ⊢
        rw [appendLoop_none_map h.get 0 zero]
        have hb0 : bufsOf f = [] := bufsOf_fresh h2
        generalize hy : appendLoop 0 0 f.shapes (List.replicate f.shapes.length none) ds = y at *
        obtain ⟨y1, y2⟩ := y
        have hnone : y1 = List.replicate f.shapes.length none →
            FaOk h.next (⟨f.shapes, some y1, 0⟩ : FArr ℕ) ∧
            (⟨f.shapes, some y1, 0⟩ : FArr ℕ).spare = [] ∧
            (⟨f.shapes, some y1, 0⟩ : FArr ℕ).vis = [] := by
          rintro rfl
          refine ⟨⟨?_, Or.inl ⟨rfl, rfl⟩⟩, ?_, ?_⟩
          · rw [bufsOf_none]; exact BufsOk.nil _ _
          · simp [FArr.spare, bufsOf_none, spareOf]
          · simp [FArr.vis, bufsOf_none, visOf]
        cases y2 with
        | error e =>
          have hle : f.shapes.length ≤ 1 := by
            rcases hfirst with h | h
            · exact h
            · simp at h
          obtain ⟨k1, k2, k3⟩ := hnone (appendLoop_none_err hle hy)
          exact ⟨h, _, _, rfl, by simp [FArr.map], le_rfl, fun _ _ _ => rfl, k1,
            by rw [k2]; simp, by rw [k3]; simp⟩
        | ok o =>
          obtain ⟨bufs, rfl, f1, f2, f3, f4, f5⟩ := appendLoop_none_ok hl.symm
            (fun d hd' => (hd ds hc d hd').1) hy
          cases o with
          | none =>
            have hsh := f2.1 rfl
            have hbe : bufs = [] := List.length_eq_zero_iff.1 (by rw [f1, hsh]; rfl)
            subst hbe
            obtain ⟨k1, k2, k3⟩ := hnone (by rw [hsh]; rfl)
            exact ⟨h, _, _, rfl, by simp [FArr.map], le_rfl, fun _ _ _ => rfl, k1,
              by rw [k2]; simp, by rw [k3]; simp⟩
          | some n =>
            obtain ⟨g1, g2⟩ := f5 m hm
            obtain rfl := g1 n rfl
            have hsp : spareOf (0 + n) bufs = [] := by
              simp only [spareOf, List.flatMap_eq_nil_iff]
              intro b hb
              rw [List.drop_eq_nil_of_le (by rw [g2 b hb]; omega)]
              rfl
            refine ⟨h, _, _, rfl, by simp [FArr.map], le_rfl, fun _ _ _ => rfl, ?_, ?_, ?_⟩
            · refine ⟨?_, Or.inr ⟨?_, ?_⟩⟩
              · rw [bufsOf_some]
                refine ⟨f3, ?_, fun b hb => by rw [g2 b hb]; show 0 + n ≤ n; omega, ?_, ?_⟩
                · intro b hb c hc'
                  obtain ⟨d, hd1, hd2⟩ := f4 b hb c hc'
                  exact (hd ds hc d hd1).2.1 c hd2
                · rw [hsp]; exact List.nodup_nil
                · rw [hsp]; simp
              · rw [bufsOf_some]
              · rw [bufsOf_some]; exact f1
            · simp only [FArr.spare, bufsOf_some, hsp]; simp
            · intro c hc'
              simp only [FArr.vis, bufsOf_some] at hc'
              obtain ⟨b, hb, hc'⟩ := List.mem_flatMap.1 hc'
              obtain ⟨d, hd1, hd2⟩ := f4 b hb c (by
                rw [cells_take_drop b.rows (0 + n)]; exact List.mem_append_left _ hc')
              exact Or.inr (Or.inr (Or.inr ⟨hfresh, ds, rfl, d, hd1, hd2⟩))
      · -- later appends
        rw [h1]
        simp only [Option.getD_some]
        obtain ⟨h', bufs', r, i1, i2, i3, i4, i5, i6, i7, i8, i9⟩ := hAppendLoop_filled zero f.len
          (bufsOf f) h f.shapes ds hf.bufs (fun d hd' => (hd ds hc d hd').1)
          (fun d hd' => (hd ds hc d hd').2.1) (fun d hd' => (hd ds hc d hd').2.2) h2.symm
          (by rw [h2, hl])
        rw [i1]
        have i2' : appendLoop zero f.len f.shapes
            (((bufsOf f).map some).map (Option.map (Buf.map h.get))) (ds.map (Comp.map h.get)) =
            ((bufs'.map some).map (Option.map (Buf.map h'.get)), r) := by
          have e : ∀ (φ : ℕ → K) (l : List (Buf ℕ)),
              (l.map some).map (Option.map (Buf.map φ)) = (l.map (Buf.map φ)).map some := by
            intro φ l; simp [Function.comp_def]
          rw [e, e, i2]
        rw [i2']
        have hkeep : FaOk h'.next ({ f with array := some (bufs'.map some) } : FArr ℕ) ∧
            (∀ c ∈ ({ f with array := some (bufs'.map some) } : FArr ℕ).spare,
              c ∈ f.spare ∨ h.next ≤ c) ∧
            ∀ c ∈ ({ f with array := some (bufs'.map some) } : FArr ℕ).vis,
              c ∈ f.vis ∨ h.next ≤ c := by
          refine ⟨⟨by rw [bufsOf_some]; exact i5, Or.inr ⟨by rw [bufsOf_some], by
            rw [bufsOf_some]; simpa [i6] using h2⟩⟩, ?_, ?_⟩
          · simp only [FArr.spare, bufsOf_some]; exact i7
          · simp only [FArr.vis, bufsOf_some]; exact i8
        cases r with
        | error e =>
          exact ⟨h', _, _, rfl, by simp [FArr.map], i3, i4, hkeep.1, hkeep.2.1, fun c hc' =>
            (hkeep.2.2 c hc').elim Or.inl fun h => Or.inr (Or.inr (Or.inl h))⟩
        | ok o =>
          cases o with
          | none =>
            exact ⟨h', _, _, rfl, by simp [FArr.map], i3, i4, hkeep.1, hkeep.2.1, fun c hc' =>
              (hkeep.2.2 c hc').elim Or.inl fun h => Or.inr (Or.inr (Or.inl h))⟩
          | some n =>
            obtain ⟨rfl, j2⟩ := i9 n rfl m hm
            obtain ⟨k1, k2, k3⟩ := i5.more j2
            refine ⟨h', _, _, rfl, by simp [FArr.map], i3, i4, ⟨by rw [bufsOf_some]; exact k1,
              Or.inr ⟨by rw [bufsOf_some], by rw [bufsOf_some]; simpa [i6] using h2⟩⟩, ?_, ?_⟩
            · simp only [FArr.spare, bufsOf_some]
              exact fun c hc' => i7 c (k2 c hc')
            · simp only [FArr.vis, bufsOf_some]
              intro c hc'
              rcases k3 c hc' with hc' | hc'
              · exact (i8 c hc').elim Or.inl fun h => Or.inr (Or.inr (Or.inl h))
              · exact (i7 c hc').elim (fun h => Or.inr (Or.inl h)) fun h => Or.inr (Or.inr (Or.inl h))

end RS
