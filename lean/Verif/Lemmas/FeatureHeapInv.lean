import Verif.Lemmas.FeatureHeapSys
import Verif.Lemmas.FeatureArrayObs

/-
The invariant of programs that use arrays and feature arrays.
-/
set_option autoImplicit false

namespace RS
variable {K A B : Type}

/-! ### export -/

theorem exportComps_ok {len : ℕ} : ∀ {bufs : List (Buf ℕ)} {l : List (NArr ℕ)},
    (∀ b ∈ bufs, ∀ r ∈ b.rows, HasShape b.ish r) →
    exportComps len (bufs.map some) = .ok l → ∀ x ∈ l, HasShape x.shape x.val ∧
      ∀ c ∈ x.val.ravel, c ∈ visOf len bufs
  | [], l, _, h => by
    simp [exportComps] at h
    subst h; simp
  | b :: bufs, l, hb, h => by
    simp only [List.map_cons, exportComps] at h
    generalize hy : exportComps len (bufs.map some) = y at h
    cases y with
    | error e => simp at h
    | ok l' =>
      have ih := exportComps_ok (fun b' hb' => hb b' (by simp [hb'])) hy
      have hrows : ∀ r ∈ b.rows.take len, HasShape b.ish r := fun r hr =>
        hb b (by simp) r (List.mem_of_mem_take hr)
      have hvis : ∀ c ∈ cells (b.rows.take len), c ∈ visOf len (b :: bufs) := fun c hc => by
        simp [visOf]; exact Or.inl hc
      simp only [Except.ok.injEq] at h
      subst h
      intro x hx
      rcases List.mem_cons.1 hx with rfl | hx
      · match hr : b.rows.take len with
        | [] => simp [HasShape, ravel_node, cells]
        | [r] =>
          rw [hr] at hrows hvis
          exact ⟨hrows r (by simp), fun c hc => hvis c (by simpa [cells] using hc)⟩
        | r :: r' :: rs =>
          rw [hr] at hrows hvis
          exact ⟨⟨rfl, hrows⟩, fun c hc => hvis c (by rwa [ravel_node] at hc)⟩
      · refine ⟨(ih x hx).1, fun c hc => ?_⟩
        have := (ih x hx).2 c hc
        simp only [visOf, List.flatMap_cons, List.mem_append] at this ⊢
        exact Or.inr this

theorem exportComps_none {len : ℕ} {n : ℕ} {l : List (NArr ℕ)}
    (h : exportComps len (List.replicate n none) = .ok l) : l = [] := by
  cases n with
  | zero => simp [exportComps] at h; exact h
  | succ n => simp [List.replicate_succ, exportComps] at h

theorem export_ok {next : ℕ} {f : FArr ℕ} (hf : FaOk next f) {x : Export ℕ}
    (h : f.export = .ok x) : ∀ a ∈ x.arrays, HasShape a.shape a.val ∧
      ∀ c ∈ a.val.ravel, c ∈ f.vis := by
  unfold FArr.export at h
  cases ha : f.array with
  | none =>
    rw [ha] at h
    simp only at h
    split at h
    · simp only [Except.ok.injEq] at h; subst h; simp [Export.arrays]
    · simp at h
  | some as =>
    rw [ha] at h
    simp only at h
    generalize hy : exportComps f.len as = y at h
    cases y with
    | error e => simp at h
    | ok l =>
      have hx : x.arrays = l := by
        simp only at h
        match hn : f.shapes.length, l with
        | 0, l => rw [hn] at h; simp at h; subst h; rfl
        | 1, [] => rw [hn] at h; simp at h; subst h; rfl
        | 1, [a] => rw [hn] at h; simp at h; subst h; rfl
        | 1, a :: b :: l => rw [hn] at h; simp at h; subst h; rfl
        | n + 2, l => rw [hn] at h; simp at h; subst h; rfl
      rw [hx]
      rcases hf.full with ⟨_, h2⟩ | ⟨h1, h2⟩
      · rw [ha, Option.getD_some] at h2
        subst h2
        rw [exportComps_none hy]; simp
      · rw [ha] at h1
        simp only [Option.some.injEq] at h1
        rw [h1] at hy
        exact exportComps_ok hf.bufs.shape hy

/-! ### indexing -/

theorem mapM_ok {E : Type} {F : A → Except E B} : ∀ {l : List A} {r : List B},
    l.mapM F = .ok r → ∀ y ∈ r, ∃ x ∈ l, F x = .ok y
  | [], r, h => by
    simp [pure, Except.pure] at h
    subst h; simp
  | x :: l, r, h => by
    rw [List.mapM_cons] at h
    cases hx : F x with
    | error e => rw [hx] at h; simp [bind, Except.bind] at h
    | ok y0 =>
      rw [hx] at h
      cases hl : l.mapM F with
      | error e => rw [hl] at h; simp [bind, Except.bind] at h
      | ok r' =>
        rw [hl] at h
        simp [bind, Except.bind, pure, Except.pure] at h
        subst h
        intro y hy
        rcases List.mem_cons.1 hy with rfl | hy
        · exact ⟨x, by simp, hx⟩
        · obtain ⟨x', hx', h'⟩ := mapM_ok hl y hy
          exact ⟨x', by simp [hx'], h'⟩

/-- The number of items `f[key]` selects. -/
def keyCount (len : ℕ) : Key → ℕ
  | .int _ => 1
  | .npint _ => 1
  | .slice a o s => match sliceIndices len a o s with
    | .ok idx => idx.length
    | .error _ => 0

theorem getComp_ok {len : ℕ} {key : Key} {b : Buf ℕ} {d : Comp ℕ}
    (hb : ∀ r ∈ b.rows, HasShape b.ish r) (hle : len ≤ b.rows.length)
    (hk : ∀ i, key ≠ .npint i) (h : getComp len key (some b) = .ok d) :
    CompOk d ∧ (∀ c ∈ compCells d, c ∈ cells (b.rows.take len)) ∧
      d.count d.tailShape = keyCount len key := by
  have hlen : (b.rows.take len).length = len := by simp [hle]
  have hrows : ∀ r ∈ b.rows.take len, HasShape b.ish r := fun r hr =>
    hb r (List.mem_of_mem_take hr)
  simp only [getComp] at h
  generalize b.rows.take len = rows at *
  cases key with
  | npint i => exact absurd rfl (hk i)
  | int i =>
    simp only at h
    cases hn : normIndex rows.length i with
    | none => rw [hn] at h; simp at h
    | some k =>
      rw [hn] at h
      simp only at h
      cases hx : rows[k]? with
      | none => rw [hx] at h; simp at h
      | some x =>
        rw [hx] at h
        simp only [Except.ok.injEq] at h
        subst h
        have hmem := List.mem_of_getElem? hx
        refine ⟨⟨rfl, by simpa using hrows x hmem⟩, ?_, ?_⟩
        · intro c hc
          simp only [compCells, ravel_node, cells, List.flatMap_cons, List.flatMap_nil,
            List.append_nil] at hc
          exact mem_cells.2 ⟨x, hmem, hc⟩
        · simp [Comp.count, Comp.tailShape, keyCount, NDVal.unstack]
  | slice a o s =>
    simp only at h
    cases hi : sliceIndices rows.length a o s with
    | error e => rw [hi] at h; simp at h
    | ok idx =>
      rw [hi] at h
      simp only [Except.ok.injEq] at h
      subst h
      have hfl : (idx.filterMap (rows[·]?)).length = idx.length := by
        rw [List.filterMap_length_eq_length]
        intro j hj
        simpa using sliceIndices_lt hi j hj
      refine ⟨⟨hfl, fun v hv => ?_⟩, ?_, ?_⟩
      · obtain ⟨j, _, hj⟩ := List.mem_filterMap.1 hv
        exact hrows v (List.mem_of_getElem? hj)
      · intro c hc
        simp only [compCells, ravel_node] at hc
        obtain ⟨v, hv, hc⟩ := mem_cells.1 hc
        obtain ⟨j, _, hj⟩ := List.mem_filterMap.1 hv
        exact mem_cells.2 ⟨v, List.mem_of_getElem? hj, hc⟩
      · rw [hlen] at hi
        simp [Comp.count, Comp.tailShape, keyCount, NDVal.unstack, hi, hfl]

theorem first_append_map (φ : A → B) (z : A) (z' : B) (shs : List (List ℕ)) (ds : List (Comp A)) :
    (FArr.new shs).append z' (.seq (ds.map (Comp.map φ))) =
      (((FArr.new shs).append z (.seq ds)).1.map φ, ((FArr.new shs).append z (.seq ds)).2) := by
  rw [FArr.append_eq, FArr.append_eq]
  simp only [AppendArg.comps, FArr.new, List.length_map, Option.getD_none]
  by_cases hl : shs.length ≠ ds.length
  · simp only [if_pos hl]; simp [FArr.map, hl]
  · simp only [if_neg hl]
    rw [appendLoop_none_map φ z z']
    generalize appendLoop z 0 shs (List.replicate shs.length none) ds = y
    obtain ⟨y1, y2⟩ := y
    cases y2 with
    | error e => simp [FArr.map, not_not.1 hl]
    | ok o => cases o <;> simp [FArr.map, not_not.1 hl]

theorem first_append_ok {next : ℕ} {shs : List (List ℕ)} {ds : List (Comp ℕ)} {g : FArr ℕ} {m : ℕ}
    (hd : ∀ d ∈ ds, CompOk d ∧ ∀ c ∈ compCells d, c < next)
    (hm : ∀ p ∈ shs.zip ds, p.2.count p.1 = m)
    (h : (FArr.new shs).append 0 (.seq ds) = (g, .ok ())) :
    FaOk next g ∧ g.spare = [] ∧ ∀ c ∈ g.vis, ∃ d ∈ ds, c ∈ compCells d := by
  rw [FArr.append_eq] at h
  simp only [AppendArg.comps] at h
  by_cases hl : (FArr.new (K := ℕ) shs).shapes.length ≠ ds.length
  · rw [if_pos hl] at h; simp at h
  · rw [if_neg hl] at h
    rw [not_not] at hl
    simp only [FArr.new, Option.getD_none] at h hl
    generalize hy : appendLoop 0 0 shs (List.replicate shs.length none) ds = y at h
    obtain ⟨y1, y2⟩ := y
    cases y2 with
    | error e => simp at h
    | ok o =>
      cases o with
      | none => simp at h
      | some n =>
        simp only [Prod.mk.injEq, and_true] at h
        subst h
        obtain ⟨bufs, rfl, f1, f2, f3, f4, f5⟩ := appendLoop_none_ok hl.symm
          (fun d hd' => (hd d hd').1) hy
        obtain ⟨g1, g2⟩ := f5 m hm
        obtain rfl := g1 n rfl
        have hsp : spareOf (0 + n) bufs = [] := by
          simp only [spareOf, List.flatMap_eq_nil_iff]
          intro b hb
          rw [List.drop_eq_nil_of_le (by rw [g2 b hb]; omega)]
          rfl
        refine ⟨⟨?_, Or.inr ⟨by rw [bufsOf_some], by rw [bufsOf_some]; exact f1⟩⟩, ?_, ?_⟩
        · rw [bufsOf_some]
          refine ⟨f3, ?_, fun b hb => by rw [g2 b hb]; show 0 + n ≤ n; omega, ?_, ?_⟩
          · intro b hb c hc'
            obtain ⟨d, hd1, hd2⟩ := f4 b hb c hc'
            exact (hd d hd1).2 c hd2
          · show (spareOf (0 + n) bufs).Nodup
            rw [hsp]; exact List.nodup_nil
          · show ∀ c ∈ spareOf (0 + n) bufs, _
            rw [hsp]; simp
        · simp only [FArr.spare, bufsOf_some, hsp]
        · intro c hc'
          simp only [FArr.vis, bufsOf_some] at hc'
          obtain ⟨b, hb, hc'⟩ := List.mem_flatMap.1 hc'
          exact f4 b hb c (by
            rw [cells_take_drop b.rows (0 + n)]; exact List.mem_append_left _ hc')

theorem getitem_map (φ : A → B) (z : A) (z' : B) (f : FArr A) (key : Key) :
    (f.map φ).getitem z' key = (f.getitem z key).map (FArr.map φ) := by
  unfold FArr.getitem
  have hlen : (f.map φ).len = f.len := rfl
  rw [hlen]
  split
  · rfl
  · cases ha : f.array with
    | none => simp [FArr.map, ha, Except.map]
    | some as =>
      simp only [FArr.map, ha, Option.map_some]
      rw [mapM_getComp_map]
      cases as.mapM (getComp f.len key) with
      | error e => rfl
      | ok temp =>
        simp only [Except.map]
        have hts : (temp.map (Comp.map φ)).map Comp.tailShape = temp.map Comp.tailShape := by
          simp [tailShape_map]
        rw [hts, first_append_map φ z z']
        generalize (FArr.new (temp.map Comp.tailShape)).append z (.seq temp) = y
        obtain ⟨y1, y2⟩ := y
        cases y2 <;> rfl

theorem zip_map_self {C : Type} (F : A → C) : ∀ (l : List A), ∀ p ∈ (l.map F).zip l, p.1 = F p.2
  | [] => by simp
  | x :: l => by
    intro p hp
    simp only [List.map_cons, List.zip_cons_cons, List.mem_cons] at hp
    rcases hp with rfl | hp
    · rfl
    · exact zip_map_self F l p hp

theorem getitem_ok {next : ℕ} {f g : FArr ℕ} {key : Key} (hf : FaOk next f)
    (hk : ∀ i, key ≠ .npint i) (h : f.getitem 0 key = .ok g) :
    FaOk next g ∧ g.spare = [] ∧ ∀ c ∈ g.vis, c ∈ f.vis := by
  unfold FArr.getitem at h
  split at h
  · simp at h
  · rename_i hlen
    rcases hf.full with ⟨h1, _⟩ | ⟨h1, _⟩
    · exact absurd h1 hlen
    · rw [h1] at h
      simp only at h
      cases ht : ((bufsOf f).map some).mapM (getComp f.len key) with
      | error e => rw [ht] at h; simp at h
      | ok temp =>
        rw [ht] at h
        simp only at h
        have hd : ∀ d ∈ temp, CompOk d ∧ (∀ c ∈ compCells d, c ∈ f.vis) ∧
            d.count d.tailShape = keyCount f.len key := by
          intro d hd
          obtain ⟨a, ha, hd⟩ := mapM_ok ht d hd
          obtain ⟨b, hb, rfl⟩ := List.mem_map.1 ha
          obtain ⟨k1, k2, k3⟩ := getComp_ok (hf.bufs.shape b hb) (hf.bufs.le b hb) hk hd
          exact ⟨k1, fun c hc => List.mem_flatMap.2 ⟨b, hb, k2 c hc⟩, k3⟩
        generalize hy : (FArr.new (temp.map Comp.tailShape)).append 0 (.seq temp) = y at h
        obtain ⟨y1, y2⟩ := y
        cases y2 with
        | error e => simp at h
        | ok _ =>
          simp only [Except.ok.injEq] at h
          subst h
          obtain ⟨k1, k2, k3⟩ := first_append_ok (next := next) (m := keyCount f.len key)
            (fun d hd' => ⟨(hd d hd').1, fun c hc => hf.bufs.lt_vis c ((hd d hd').2.1 c hc)⟩)
            (by
              intro p hp
              have h1 := zip_map_self Comp.tailShape temp p hp
              have h2 := (List.of_mem_zip (a := p.1) (b := p.2) hp).2
              rw [h1]; exact (hd _ h2).2.2) hy
          refine ⟨k1, k2, fun c hc => ?_⟩
          obtain ⟨d, hd1, hd2⟩ := k3 c hc
          exact (hd d hd1).2.1 c hd2

/-! ### the invariant -/

structure FInv (s : FSys K) : Prop where
  shape : ∀ x ∈ s.arrs, HasShape x.shape x.val
  lt : ∀ x ∈ s.arrs, ∀ c ∈ x.val.ravel, c < s.heap.next
  fas : ∀ f ∈ s.fas, FaOk s.heap.next f
  spare : ∀ (i j : ℕ) (f g : FArr ℕ), s.fas[i]? = some f → s.fas[j]? = some g → i ≠ j → ∀ c ∈ f.spare,
    c ∉ g.spare ∧ c ∉ g.vis
  arrs : ∀ f ∈ s.fas, ∀ x ∈ s.arrs, ∀ c ∈ f.spare, c ∉ x.val.ravel

theorem FInv.init (zero : K) : FInv (FSys.init zero) := by
  constructor <;> simp [FSys.init]

theorem FInv.spare_vis {s : FSys K} (hs : FInv s) {f g : FArr ℕ} (hf : f ∈ s.fas) (hg : g ∈ s.fas) :
    ∀ c ∈ f.spare, c ∉ g.vis := by
  obtain ⟨i, hi⟩ := List.mem_iff_getElem?.1 hf
  obtain ⟨j, hj⟩ := List.mem_iff_getElem?.1 hg
  intro c hc
  by_cases hij : i = j
  · subst hij
    rw [hi] at hj
    cases hj
    exact (hs.fas f hf).bufs.disj c hc
  · exact (hs.spare i j f g hi hj hij c hc).2

theorem FaOk.lt_spare {next : ℕ} {f : FArr ℕ} (h : FaOk next f) : ∀ c ∈ f.spare, c < next :=
  h.bufs.lt_spare

theorem FaOk.lt_vis {next : ℕ} {f : FArr ℕ} (h : FaOk next f) : ∀ c ∈ f.vis, c < next :=
  h.bufs.lt_vis

theorem FInv.heap {s : FSys K} (hs : FInv s) (h' : CellHeap K) (hn : s.heap.next ≤ h'.next) :
    FInv ⟨h', s.arrs, s.fas⟩ :=
  ⟨hs.shape, fun x hx c hc => lt_of_lt_of_le (hs.lt x hx c hc) hn,
    fun f hf => (hs.fas f hf).mono hn, hs.spare, hs.arrs⟩

theorem getElem?_append_or {l l' : List A} {i : ℕ} {x : A} (h : (l ++ l')[i]? = some x) :
    l[i]? = some x ∨ x ∈ l' := by
  rcases lt_or_ge i l.length with hi | hi
  · rw [List.getElem?_append_left hi] at h; exact Or.inl h
  · rw [List.getElem?_append_right hi] at h; exact Or.inr (List.mem_of_getElem? h)

/-- A feature array without spare cells, and arrays, can be added. -/
theorem FInv.add {s : FSys K} (hs : FInv s) (xs : List (NArr ℕ)) (gs : List (FArr ℕ))
    (hx : ∀ x ∈ xs, HasShape x.shape x.val ∧ (∀ c ∈ x.val.ravel, c < s.heap.next) ∧
      ∀ f ∈ s.fas, ∀ c ∈ x.val.ravel, c ∉ f.spare)
    (hg : ∀ g ∈ gs, FaOk s.heap.next g ∧ g.spare = [] ∧ ∀ f ∈ s.fas, ∀ c ∈ g.vis, c ∉ f.spare) :
    FInv ⟨s.heap, s.arrs ++ xs, s.fas ++ gs⟩ := by
  have hsp : ∀ (i : ℕ) (f : FArr ℕ), (s.fas ++ gs)[i]? = some f → ∀ c ∈ f.spare, s.fas[i]? = some f := by
    intro i f hi c hc
    rcases getElem?_append_or hi with h | h
    · exact h
    · rw [(hg f h).2.1] at hc; simp at hc
  refine ⟨?_, ?_, ?_, ?_, ?_⟩
  · intro x h
    rcases List.mem_append.1 h with h | h
    · exact hs.shape x h
    · exact (hx x h).1
  · intro x h
    rcases List.mem_append.1 h with h | h
    · exact hs.lt x h
    · exact (hx x h).2.1
  · intro g h
    rcases List.mem_append.1 h with h | h
    · exact hs.fas g h
    · exact (hg g h).1
  · intro i j f g hi hj hij c hc
    have hi := hsp i f hi c hc
    rcases getElem?_append_or hj with h | h
    · exact hs.spare i j f g hi h hij c hc
    · exact ⟨by simp [(hg g h).2.1], fun h' =>
        (hg g h).2.2 f (List.mem_of_getElem? hi) c h' hc⟩
  · intro f hf x hx' c hc
    obtain ⟨i, hi⟩ := List.mem_iff_getElem?.1 hf
    have hi := List.mem_of_getElem? (hsp i f hi c hc)
    rcases List.mem_append.1 hx' with h | h
    · exact hs.arrs f hi x h c hc
    · exact fun h' => (hx x h).2.2 f hi c h' hc

/-! ### arguments of append -/

theorem mapM_some {F : A → Option B} : ∀ {l : List A} {r : List B},
    l.mapM F = some r → ∀ y ∈ r, ∃ x ∈ l, F x = some y
  | [], r, h => by
    simp at h
    subst h; simp
  | x :: l, r, h => by
    rw [List.mapM_cons] at h
    cases hx : F x with
    | none => rw [hx] at h; simp at h
    | some y0 =>
      rw [hx] at h
      cases hl : l.mapM F with
      | none => rw [hl] at h; simp at h
      | some r' =>
        rw [hl] at h
        simp at h
        subst h
        intro y hy
        rcases List.mem_cons.1 hy with rfl | hy
        · exact ⟨x, by simp, hx⟩
        · obtain ⟨x', hx', h'⟩ := mapM_some hl y hy
          exact ⟨x', by simp [hx'], h'⟩

/-- Where the cells of an argument come from. -/
theorem resolve_cells {s : FSys K} (hs : FInv s) {arg : ArgRef} {data : AppendArg ℕ}
    (h : arg.resolve s.arrs s.fas = some data) {ds : List (Comp ℕ)} (hds : data.comps = .ok ds) :
    ∀ d ∈ ds, CompOk d ∧ ∀ c ∈ compCells d,
      (∃ i ∈ arg.mentions, ∃ x, s.arrs[i]? = some x ∧ c ∈ x.val.ravel) ∨ ∃ g ∈ s.fas, c ∈ g.vis := by
  cases arg with
  | other =>
    simp [ArgRef.resolve] at h; subst h
    simp [AppendArg.comps] at hds
  | ndarray i =>
    simp [ArgRef.resolve] at h
    obtain ⟨x, hx, rfl⟩ := h
    simp [AppendArg.comps] at hds
    subst hds
    intro d hd
    simp only [List.mem_singleton] at hd
    subst hd
    exact ⟨hs.shape x (List.mem_of_getElem? hx), fun c hc =>
      Or.inl ⟨i, by simp [ArgRef.mentions], x, hx, hc⟩⟩
  | seq l =>
    simp only [ArgRef.resolve, Option.map_eq_some_iff] at h
    obtain ⟨r, hr, rfl⟩ := h
    simp only [AppendArg.comps, Except.ok.injEq] at hds
    subst hds
    intro d hd
    obtain ⟨o, ho, hd⟩ := mapM_some hr d hd
    cases o with
    | none => simp [lookupComp] at hd; subst hd; exact ⟨trivial, by simp [compCells]⟩
    | some i =>
      simp only [lookupComp, Option.map_eq_some_iff] at hd
      obtain ⟨x, hx, rfl⟩ := hd
      exact ⟨hs.shape x (List.mem_of_getElem? hx), fun c hc =>
        Or.inl ⟨i, by simpa [ArgRef.mentions] using ho, x, hx, hc⟩⟩
  | farr j =>
    simp [ArgRef.resolve] at h
    obtain ⟨g, hg, rfl⟩ := h
    have hg := List.mem_of_getElem? hg
    simp only [AppendArg.comps] at hds
    cases he : g.export with
    | error e => rw [he] at hds; simp at hds
    | ok x =>
      rw [he] at hds
      have hx := export_ok (hs.fas g hg) he
      cases x with
      | single a =>
        simp only [Except.ok.injEq] at hds
        subst hds
        intro d hd
        simp only [List.mem_singleton] at hd
        subst hd
        exact ⟨(hx a (by simp [Export.arrays])).1, fun c hc =>
          Or.inr ⟨g, hg, (hx a (by simp [Export.arrays])).2 c hc⟩⟩
      | list as =>
        simp only [Except.ok.injEq] at hds
        subst hds
        intro d hd
        obtain ⟨a, ha, rfl⟩ := List.mem_map.1 hd
        exact ⟨(hx a ha).1, fun c hc => Or.inr ⟨g, hg, (hx a ha).2 c hc⟩⟩

theorem FInv.args {s : FSys K} (hs : FInv s) {arg : ArgRef} {data : AppendArg ℕ}
    (h : arg.resolve s.arrs s.fas = some data) {ds : List (Comp ℕ)} (hds : data.comps = .ok ds) :
    ∀ d ∈ ds, CompOk d ∧ (∀ c ∈ compCells d, c < s.heap.next) ∧
      ∀ f ∈ s.fas, ∀ c ∈ compCells d, c ∉ f.spare := by
  intro d hd
  obtain ⟨h1, h2⟩ := resolve_cells hs h hds d hd
  refine ⟨h1, fun c hc => ?_, fun f hf c hc hc' => ?_⟩
  · rcases h2 c hc with ⟨i, _, x, hx, hc⟩ | ⟨g, hg, hc⟩
    · exact hs.lt x (List.mem_of_getElem? hx) c hc
    · exact (hs.fas g hg).lt_vis c hc
  · rcases h2 c hc with ⟨i, _, x, hx, hc⟩ | ⟨g, hg, hc⟩
    · exact hs.arrs f hf x (List.mem_of_getElem? hx) c hc' hc
    · exact hs.spare_vis hf hg c hc' hc

/-! ### one statement -/

theorem arr_map_congr {φ ψ : ℕ → K} {x : NArr ℕ} (h : ∀ c ∈ x.val.ravel, φ c = ψ c) :
    x.map φ = x.map ψ := by
  unfold NArr.map
  rw [NDVal.map_congr x.val h]

theorem mem_bufsOf {f : FArr ℕ} {b : Buf ℕ} (h : b ∈ bufsOf f) :
    ∃ as, f.array = some as ∧ some b ∈ as := by
  unfold bufsOf at h
  cases ha : f.array with
  | none => simp [ha] at h
  | some as => rw [ha] at h; simpa using h

theorem FArr.spare_mem {f : FArr ℕ} {c : ℕ} (h : c ∈ f.spare ∨ c ∈ f.vis) :
    ∃ as, f.array = some as ∧ ∃ b, some b ∈ as ∧ ∃ r ∈ b.rows, c ∈ r.ravel := by
  rcases h with h | h
  · obtain ⟨b, hb, hc⟩ := List.mem_flatMap.1 h
    obtain ⟨as, ha, hb⟩ := mem_bufsOf hb
    obtain ⟨r, hr, hc⟩ := mem_cells.1 hc
    exact ⟨as, ha, b, hb, r, List.mem_of_mem_drop hr, hc⟩
  · obtain ⟨b, hb, hc⟩ := List.mem_flatMap.1 h
    obtain ⟨as, ha, hb⟩ := mem_bufsOf hb
    obtain ⟨r, hr, hc⟩ := mem_cells.1 hc
    exact ⟨as, ha, b, hb, r, List.mem_of_mem_take hr, hc⟩

theorem FArr.mem_spare {f : FArr ℕ} {as : List (Option (Buf ℕ))} {b : Buf ℕ} {r : NDVal ℕ} {c : ℕ}
    (h1 : f.array = some as) (h2 : some b ∈ as) (h3 : r ∈ b.rows) (h4 : c ∈ r.ravel) :
    c ∈ f.spare ∨ c ∈ f.vis := by
  have hb : b ∈ bufsOf f := by
    unfold bufsOf; rw [h1]; simpa using h2
  have hc : c ∈ cells b.rows := mem_cells.2 ⟨r, h3, h4⟩
  rw [cells_take_drop b.rows f.len] at hc
  rcases List.mem_append.1 hc with hc | hc
  · exact Or.inr (List.mem_flatMap.2 ⟨b, hb, hc⟩)
  · exact Or.inl (List.mem_flatMap.2 ⟨b, hb, hc⟩)

theorem step_array (zero : K) {s : FSys K} (hs : FInv s) (a : NArr K)
    (ha : HasShape a.shape a.val) :
    FInv (s.step zero (.array a)).1 ∧
      (s.step zero (.array a)).1.seen = (s.seen.step zero (.array a)).1 ∧
      (s.step zero (.array a)).2 = (s.seen.step zero (.array a)).2 := by
  have hold : ∀ c < s.heap.next, (s.heap.alloc a.val.ravel).get c = s.heap.get c :=
    fun c hc => s.heap.alloc_old _ hc
  have hnext : (s.heap.alloc a.val.ravel).next = s.heap.next + a.shape.prod := by
    simp [CellHeap.alloc, ha.length]
  refine ⟨?_, ?_, rfl⟩
  · have h1 := hs.heap (s.heap.alloc a.val.ravel) (by rw [hnext]; omega)
    have h2 := h1.add [⟨a.dtype, a.shape, addrs a.shape s.heap.next⟩] [] (by
      intro x hx
      simp only [List.mem_singleton] at hx
      subst hx
      refine ⟨addrs_shape _ _, ?_, ?_⟩
      · intro c hc
        simp only [addrs_ravel, List.mem_range'_1] at hc
        simp only [hnext]
        omega
      · intro f hf c hc hc'
        simp only [addrs_ravel, List.mem_range'_1] at hc
        have := (hs.fas f hf).lt_spare c hc'
        omega) (by simp)
    simpa [FSys.step] using h2
  · simp only [FSys.step, VSys.step, FSys.seen, List.map_append, List.map_cons, List.map_nil,
      VSys.mk.injEq]
    refine ⟨?_, ?_⟩
    · congr 1
      · exact List.map_congr_left fun x hx => arr_map_congr fun c hc => hold c (hs.lt x hx c hc)
      · simp only [NArr.map, List.cons.injEq, and_true]
        have : (addrs a.shape s.heap.next).map (s.heap.alloc a.val.ravel).get = a.val := by
          refine HasShape.ext (addrs_shape _ _).map ha ?_
          rw [NDVal.ravel_map, addrs_ravel, ← ha.length]
          exact s.heap.alloc_new _
        rw [this]
    · exact List.map_congr_left fun f hf => map_congr_fa (hs.fas f hf)
        (fun c hc => hold c ((hs.fas f hf).lt_spare c hc))
        (fun c hc => hold c ((hs.fas f hf).lt_vis c hc))

theorem slice_ok {x y : NArr ℕ} {a o st : Option ℤ} (hx : HasShape x.shape x.val)
    (h : x.slice a o st = .ok y) : HasShape y.shape y.val ∧ ∀ c ∈ y.val.ravel, c ∈ x.val.ravel := by
  unfold NArr.slice at h
  match hsh : x.shape, hx with
  | [], _ => rw [hsh] at h; simp at h
  | n :: sh, hx =>
    rw [hsh] at h
    simp only at h
    cases hi : sliceIndices x.val.unstack.length a o st with
    | error e => rw [hi] at h; simp at h
    | ok idx =>
      rw [hi] at h
      simp only [Except.ok.injEq] at h
      subst h
      have hfl : (idx.filterMap (x.val.unstack[·]?)).length = idx.length := by
        rw [List.filterMap_length_eq_length]
        intro j hj
        simpa using sliceIndices_lt hi j hj
      refine ⟨⟨hfl, fun v hv => ?_⟩, fun c hc => ?_⟩
      · obtain ⟨j, _, hj⟩ := List.mem_filterMap.1 hv
        exact hx.unstack.2.2 v (List.mem_of_getElem? hj)
      · simp only [ravel_node] at hc
        obtain ⟨v, hv, hc⟩ := mem_cells.1 hc
        obtain ⟨j, _, hj⟩ := List.mem_filterMap.1 hv
        rw [hx.unstack.1, ravel_node]
        exact mem_cells.2 ⟨v, List.mem_of_getElem? hj, hc⟩

theorem step_view (zero : K) {s : FSys K} (hs : FInv s) (i : ℕ) (a o st : Option ℤ) :
    FInv (s.step zero (.view i a o st)).1 ∧
      (s.step zero (.view i a o st)).1.seen = (s.seen.step zero (.view i a o st)).1 ∧
      (s.step zero (.view i a o st)).2 = (s.seen.step zero (.view i a o st)).2 := by
  simp only [FSys.step, VSys.step, FSys.seen, List.getElem?_map]
  cases hx : s.arrs[i]? with
  | none => exact ⟨hs, rfl, rfl⟩
  | some x =>
    have hxm := List.mem_of_getElem? hx
    simp only [Option.map_some, slice_map]
    cases hy : x.slice a o st with
    | error e => exact ⟨hs, rfl, rfl⟩
    | ok y =>
      obtain ⟨h1, h2⟩ := slice_ok (hs.shape x hxm) hy
      refine ⟨?_, by simp [Except.map], by simp [Except.map]⟩
      have := hs.add [y] [] (by
        intro x' hx'
        simp only [List.mem_singleton] at hx'
        subst hx'
        exact ⟨h1, fun c hc => hs.lt x hxm c (h2 c hc), fun f hf c hc hc' =>
          hs.arrs f hf x hxm c hc' (h2 c hc)⟩) (by simp)
      simpa using this

theorem step_new (zero : K) {s : FSys K} (hs : FInv s) (shs : List (List ℕ)) :
    FInv (s.step zero (.new shs)).1 ∧
      (s.step zero (.new shs)).1.seen = (s.seen.step zero (.new shs)).1 ∧
      (s.step zero (.new shs)).2 = (s.seen.step zero (.new shs)).2 := by
  simp only [FSys.step, VSys.step, FSys.seen]
  refine ⟨?_, by simp [FArr.map, FArr.new], trivial⟩
  have := hs.add [] [FArr.new shs] (by simp) (by
    intro g hg
    simp only [List.mem_singleton] at hg
    subst hg
    exact ⟨FaOk.new _ _, by simp [FArr.spare, FArr.new, bufsOf, spareOf],
      by simp [FArr.vis, FArr.new, bufsOf, visOf]⟩)
  simpa using this

theorem step_getitem (zero : K) {s : FSys K} (hs : FInv s) (k : ℕ) (key : Key)
    (hk : ∀ i, key ≠ .npint i) :
    FInv (s.step zero (.getitem k key)).1 ∧
      (s.step zero (.getitem k key)).1.seen = (s.seen.step zero (.getitem k key)).1 ∧
      (s.step zero (.getitem k key)).2 = (s.seen.step zero (.getitem k key)).2 := by
  simp only [FSys.step, VSys.step, FSys.seen, List.getElem?_map]
  cases hf : s.fas[k]? with
  | none => exact ⟨hs, rfl, rfl⟩
  | some f =>
    have hfm := List.mem_of_getElem? hf
    simp only [Option.map_some, getitem_map s.heap.get 0 zero]
    cases hg : f.getitem 0 key with
    | error e => exact ⟨hs, rfl, rfl⟩
    | ok g =>
      obtain ⟨h1, h2, h3⟩ := getitem_ok (hs.fas f hfm) hk hg
      refine ⟨?_, by simp [Except.map], by simp [Except.map]⟩
      have := hs.add [] [g] (by simp) (by
        intro g' hg'
        simp only [List.mem_singleton] at hg'
        subst hg'
        exact ⟨h1, h2, fun f' hf' c hc hc' => hs.spare_vis hf' hfm c hc' (h3 c hc)⟩)
      simpa using this

theorem step_export (zero : K) {s : FSys K} (hs : FInv s) (k : ℕ) :
    FInv (s.step zero (.export k)).1 ∧
      (s.step zero (.export k)).1.seen = (s.seen.step zero (.export k)).1 ∧
      (s.step zero (.export k)).2 = (s.seen.step zero (.export k)).2 := by
  simp only [FSys.step, VSys.step, FSys.seen, List.getElem?_map]
  cases hf : s.fas[k]? with
  | none => exact ⟨hs, rfl, rfl⟩
  | some f =>
    have hfm := List.mem_of_getElem? hf
    simp only [Option.map_some, export_map]
    cases hx : f.export with
    | error e => exact ⟨hs, rfl, rfl⟩
    | ok x =>
      have h1 := export_ok (hs.fas f hfm) hx
      refine ⟨?_, by cases x <;> simp [Except.map, Export.map, Export.arrays], by simp [Except.map]⟩
      have := hs.add x.arrays [] (by
        intro a ha
        exact ⟨(h1 a ha).1, fun c hc => (hs.fas f hfm).lt_vis c ((h1 a ha).2 c hc),
          fun f' hf' c hc hc' => hs.spare_vis hf' hfm c hc' ((h1 a ha).2 c hc)⟩) (by simp)
      simpa using this

theorem step_write (zero : K) {s : FSys K} (hs : FInv s) (i : ℕ) (v : NDVal K)
    (hv : ∀ x, s.arrs[i]? = some x → HasShape x.shape v) (hu : s.Unshared i) :
    FInv (s.step zero (.write i v)).1 ∧
      (s.step zero (.write i v)).1.seen = (s.seen.step zero (.write i v)).1 ∧
      (s.step zero (.write i v)).2 = (s.seen.step zero (.write i v)).2 := by
  simp only [FSys.step, VSys.step, FSys.seen, List.getElem?_map]
  cases hx : s.arrs[i]? with
  | none => exact ⟨hs, rfl, rfl⟩
  | some x =>
    obtain ⟨u1, u2, u3⟩ := hu x hx
    have hxm := List.mem_of_getElem? hx
    have hv := hv x hx
    have hlen : x.val.ravel.length = v.ravel.length := by
      rw [(hs.shape x hxm).length, hv.length]
    refine ⟨hs.heap _ (by simp [CellHeap.store]), ?_, rfl⟩
    simp only [Option.map_some, VSys.mk.injEq]
    refine ⟨?_, ?_⟩
    · apply List.ext_getElem?
      intro j
      rw [List.getElem?_map, List.getElem?_set]
      by_cases hij : i = j
      · subst hij
        have hil := (List.getElem?_eq_some_iff.1 hx).1
        simp only [hx, Option.map_some, if_true, List.length_map, hil]
        simp only [NArr.map, Option.some.injEq, NArr.mk.injEq, true_and]
        refine HasShape.ext (hs.shape x hxm).map hv ?_
        rw [NDVal.ravel_map]
        exact s.heap.store_same u1 hlen
      · simp only [if_neg hij, List.getElem?_map]
        cases hy : s.arrs[j]? with
        | none => rfl
        | some y =>
          simp only [Option.map_some, Option.some.injEq]
          exact arr_map_congr fun c hc => s.heap.store_other (u2 j y hy (Ne.symm hij) c hc)
    · refine List.map_congr_left fun f hf => map_congr_fa (hs.fas f hf) ?_ ?_
      · intro c hc
        obtain ⟨as, h1, b, h2, r, h3, h4⟩ := FArr.spare_mem (Or.inl hc)
        exact s.heap.store_other (u3 f hf as h1 b h2 r h3 c h4)
      · intro c hc
        obtain ⟨as, h1, b, h2, r, h3, h4⟩ := FArr.spare_mem (Or.inr hc)
        exact s.heap.store_other (u3 f hf as h1 b h2 r h3 c h4)

theorem step_append (zero : K) {s : FSys K} (hs : FInv s) (k : ℕ) (arg : ArgRef)
    (ha : s.Allowed zero (.append k arg)) :
    FInv (s.step zero (.append k arg)).1 ∧
      (s.step zero (.append k arg)).1.seen = (s.seen.step zero (.append k arg)).1 ∧
      (s.step zero (.append k arg)).2 = (s.seen.step zero (.append k arg)).2 := by
  simp only [FSys.step, VSys.step, FSys.seen, List.getElem?_map, resolve_map]
  cases hf : s.fas[k]? with
  | none => exact ⟨hs, rfl, rfl⟩
  | some f =>
    cases hd : arg.resolve s.arrs s.fas with
    | none => exact ⟨hs, rfl, rfl⟩
    | some data =>
      have hfm := List.mem_of_getElem? hf
      obtain ⟨a1, a2⟩ := ha f data hf hd
      obtain ⟨h', f', r, e1, e2, e3, e4, e5, e6, e7⟩ := hAppend_spec zero s.heap f data
        (hs.fas f hfm) (fun ds hds d hd' => ⟨(hs.args hd hds d hd').1, (hs.args hd hds d hd').2.1,
          (hs.args hd hds d hd').2.2 f hfm⟩) a1 a2
      simp only [Option.map_some, e1, e2]
      have hkl := (List.getElem?_eq_some_iff.1 hf).1
      have hset : ∀ j g, (s.fas.set k f')[j]? = some g → j = k ∧ g = f' ∨ j ≠ k ∧ s.fas[j]? = some g := by
        intro j g hj
        rw [List.getElem?_set] at hj
        by_cases hjk : k = j
        · subst hjk
          simp only [if_true, hkl] at hj
          exact Or.inl ⟨rfl, (Option.some.inj hj).symm⟩
        · rw [if_neg hjk] at hj
          exact Or.inr ⟨Ne.symm hjk, hj⟩
      refine ⟨⟨hs.shape, fun x hx c hc => lt_of_lt_of_le (hs.lt x hx c hc) e3, ?_, ?_, ?_⟩, ?_, trivial⟩
      · intro g hg
        obtain ⟨j, hj⟩ := List.mem_iff_getElem?.1 hg
        rcases hset j g hj with ⟨_, rfl⟩ | ⟨_, hj⟩
        · exact e5
        · exact (hs.fas g (List.mem_of_getElem? hj)).mono e3
      · intro i j g1 g2 hi hj hij c hc
        rcases hset i g1 hi with ⟨rfl, rfl⟩ | ⟨hik, hi'⟩
        · rcases hset j g2 hj with ⟨rfl, rfl⟩ | ⟨hjk, hj⟩
          · exact absurd rfl hij
          · have hjm := List.mem_of_getElem? hj
            rcases e6 c hc with hc | hc
            · exact hs.spare i j f g2 hf hj hij c hc
            · refine ⟨fun h => ?_, fun h => ?_⟩
              · have := (hs.fas g2 hjm).lt_spare c h
                omega
              · have := (hs.fas g2 hjm).lt_vis c h
                omega
        · have him := List.mem_of_getElem? hi'
          have hlt := (hs.fas g1 him).lt_spare c hc
          rcases hset j g2 hj with ⟨rfl, rfl⟩ | ⟨hjk, hj⟩
          · have hsp := hs.spare i j g1 f hi' hf hij c hc
            refine ⟨fun h => ?_, fun h => ?_⟩
            · rcases e6 c h with h | h
              · exact hsp.1 h
              · omega
            · rcases e7 c h with h | h | h | ⟨_, ds, hds, d, hd', h⟩
              · exact hsp.2 h
              · exact hsp.1 h
              · omega
              · exact (hs.args hd hds d hd').2.2 g1 him c h hc
          · exact hs.spare i j g1 g2 hi' hj hij c hc
      · intro g hg x hx c hc
        obtain ⟨j, hj⟩ := List.mem_iff_getElem?.1 hg
        rcases hset j g hj with ⟨_, rfl⟩ | ⟨_, hj⟩
        · rcases e6 c hc with hc | hc
          · exact hs.arrs f hfm x hx c hc
          · intro h
            have := hs.lt x hx c h
            omega
        · exact hs.arrs g (List.mem_of_getElem? hj) x hx c hc
      · simp only [VSys.mk.injEq]
        refine ⟨?_, ?_⟩
        · exact List.map_congr_left fun x hx => arr_map_congr fun c hc =>
            e4 c (hs.lt x hx c hc) fun h => hs.arrs f hfm x hx c h hc
        · rw [List.map_set]
          apply List.ext_getElem?
          intro j
          rw [List.getElem?_set, List.getElem?_set]
          by_cases hjk : k = j
          · subst hjk
            simp [hkl]
          · rw [if_neg hjk, if_neg hjk, List.getElem?_map, List.getElem?_map]
            cases hj : s.fas[j]? with
            | none => rfl
            | some g =>
              have hgm := List.mem_of_getElem? hj
              simp only [Option.map_some, Option.some.injEq]
              exact map_congr_fa (hs.fas g hgm)
                (fun c hc => e4 c ((hs.fas g hgm).lt_spare c hc) fun h =>
                  (hs.spare k j f g hf hj hjk c h).1 hc)
                (fun c hc => e4 c ((hs.fas g hgm).lt_vis c hc) fun h =>
                  (hs.spare k j f g hf hj hjk c h).2 hc)

theorem step_spec (zero : K) {s : FSys K} (hs : FInv s) (op : FOp K) (ha : s.Allowed zero op) :
    FInv (s.step zero op).1 ∧ (s.step zero op).1.seen = (s.seen.step zero op).1 ∧
      (s.step zero op).2 = (s.seen.step zero op).2 := by
  cases op with
  | array a => exact step_array zero hs a ha
  | view i a o st => exact step_view zero hs i a o st
  | new shs => exact step_new zero hs shs
  | append k arg => exact step_append zero hs k arg ha
  | getitem k key => exact step_getitem zero hs k key ha
  | «export» k => exact step_export zero hs k
  | write i v => exact step_write zero hs i v ha.1 ha.2

theorem run_spec (zero : K) : ∀ (ops : List (FOp K)) {s : FSys K}, FInv s → s.AllAllowed zero ops →
    FInv (s.run zero ops).1 ∧ (s.run zero ops).1.seen = (s.seen.run zero ops).1 ∧
      (s.run zero ops).2 = (s.seen.run zero ops).2
  | [], s, hs, _ => ⟨hs, rfl, rfl⟩
  | op :: ops, s, hs, h => by
    obtain ⟨h1, h2, h3⟩ := step_spec zero hs op h.1
    obtain ⟨k1, k2, k3⟩ := run_spec zero ops h1 h.2
    simp only [FSys.run, VSys.run]
    rw [← h2, ← h3]
    exact ⟨k1, k2, by rw [k3]⟩

/-! ### sharing -/

theorem unshared_of {s : FSys K} {i : ℕ} {x : NArr ℕ} (hx : s.arrs[i]? = some x)
    (h1 : x.val.ravel.Nodup)
    (h2 : ∀ (j : ℕ) (y : NArr ℕ), s.arrs[j]? = some y → j ≠ i → ∀ c ∈ y.val.ravel, c ∉ x.val.ravel)
    (h3 : ∀ f ∈ s.fas, ∀ c, c ∈ f.spare ∨ c ∈ f.vis → c ∉ x.val.ravel) : s.Unshared i := by
  intro x' hx'
  rw [hx] at hx'
  cases hx'
  exact ⟨h1, h2, fun f hf as ha b hb r hr c hc => h3 f hf c (FArr.mem_spare ha hb hr hc)⟩

theorem FSys.Unshared.fas {s : FSys K} {i : ℕ} {x : NArr ℕ} (h : s.Unshared i)
    (hx : s.arrs[i]? = some x) : ∀ f ∈ s.fas, ∀ c, c ∈ f.spare ∨ c ∈ f.vis → c ∉ x.val.ravel := by
  intro f hf c hc
  obtain ⟨as, h1, b, h2, r, h3, h4⟩ := FArr.spare_mem hc
  exact (h x hx).2.2 f hf as h1 b h2 r h3 c h4

theorem unshared_array (zero : K) {s : FSys K} (hs : FInv s) (a : NArr K) :
    (s.step zero (.array a)).1.Unshared s.arrs.length := by
  refine unshared_of (x := ⟨a.dtype, a.shape, addrs a.shape s.heap.next⟩)
    (by simp [FSys.step]) ?_ ?_ ?_
  · simp only [addrs_ravel]; exact List.nodup_range'
  · intro j y hy hj c hc hc'
    simp only [addrs_ravel, List.mem_range'_1] at hc'
    simp only [FSys.step] at hy
    rcases lt_or_ge j s.arrs.length with hjl | hjl
    · rw [List.getElem?_append_left hjl] at hy
      have := hs.lt y (List.mem_of_getElem? hy) c hc
      omega
    · rw [List.getElem?_append_right hjl] at hy
      have := (List.getElem?_eq_some_iff.1 hy).1
      simp at this
      omega
  · intro f hf c hc hc'
    simp only [addrs_ravel, List.mem_range'_1] at hc'
    rcases hc with hc | hc
    · have := (hs.fas f hf).lt_spare c hc
      omega
    · have := (hs.fas f hf).lt_vis c hc
      omega

theorem FSys.Unshared.add {s : FSys K} {i : ℕ} {x : NArr ℕ} (h : s.Unshared i)
    (hx : s.arrs[i]? = some x) (h' : CellHeap K) (ys : List (NArr ℕ)) (gs : List (FArr ℕ))
    (hy : ∀ y ∈ ys, ∀ c ∈ y.val.ravel, c ∉ x.val.ravel)
    (hg : ∀ g ∈ gs, ∀ c, c ∈ g.spare ∨ c ∈ g.vis → c ∉ x.val.ravel) :
    (⟨h', s.arrs ++ ys, s.fas ++ gs⟩ : FSys K).Unshared i := by
  have hil := (List.getElem?_eq_some_iff.1 hx).1
  refine unshared_of (x := x) ?_ (h x hx).1 ?_ ?_
  · simp only
    rw [List.getElem?_append_left hil]; exact hx
  · intro j y hj hji
    rcases getElem?_append_or hj with hj | hj
    · exact (h x hx).2.1 j y hj hji
    · exact hy y hj
  · intro f hf
    rcases List.mem_append.1 hf with hf | hf
    · exact h.fas hx f hf
    · exact hg f hf

theorem unshared_step (zero : K) {s : FSys K} (hs : FInv s) {i : ℕ} {x : NArr ℕ}
    (hx : s.arrs[i]? = some x) (h : s.Unshared i) (op : FOp K) (ha : s.Allowed zero op)
    (hop : ¬ op.Shares s i) : (s.step zero op).1.Unshared i := by
  have hxm := List.mem_of_getElem? hx
  cases op with
  | array a =>
    have := h.add hx (s.heap.alloc a.val.ravel) [⟨a.dtype, a.shape, addrs a.shape s.heap.next⟩] []
      (by
        intro y hy c hc hc'
        simp only [List.mem_singleton] at hy
        subst hy
        simp only [addrs_ravel, List.mem_range'_1] at hc
        have := hs.lt x hxm c hc'
        omega) (by simp)
    simpa [FSys.step] using this
  | view j a o st =>
    simp only [FSys.step]
    cases hy : s.arrs[j]? with
    | none => exact h
    | some y =>
      simp only
      cases hz : y.slice a o st with
      | error e => exact h
      | ok z =>
        have hzs := (slice_ok (hs.shape y (List.mem_of_getElem? hy)) hz).2
        have := h.add hx s.heap [z] [] (by
          intro z' hz' c hc
          simp only [List.mem_singleton] at hz'
          subst hz'
          exact (h x hx).2.1 j y hy hop c (hzs c hc)) (by simp)
        simpa using this
  | new shs =>
    have := h.add hx s.heap [] [FArr.new shs] (by simp) (by
      intro g hg c hc
      simp only [List.mem_singleton] at hg
      subst hg
      simp [FArr.spare, FArr.vis, FArr.new, bufsOf, spareOf, visOf] at hc)
    simpa [FSys.step] using this
  | getitem k key =>
    simp only [FSys.step]
    cases hf : s.fas[k]? with
    | none => exact h
    | some f =>
      simp only
      cases hg : f.getitem 0 key with
      | error e => exact h
      | ok g =>
        have hfm := List.mem_of_getElem? hf
        obtain ⟨_, h2, h3⟩ := getitem_ok (hs.fas f hfm) ha hg
        have := h.add hx s.heap [] [g] (by simp) (by
          intro g' hg' c hc
          simp only [List.mem_singleton] at hg'
          subst hg'
          rcases hc with hc | hc
          · rw [h2] at hc; simp at hc
          · exact h.fas hx f hfm c (Or.inr (h3 c hc)))
        simpa using this
  | «export» k =>
    simp only [FSys.step]
    cases hf : s.fas[k]? with
    | none => exact h
    | some f =>
      simp only
      cases he : f.export with
      | error e => exact h
      | ok z =>
        have hfm := List.mem_of_getElem? hf
        have h1 := export_ok (hs.fas f hfm) he
        have := h.add hx s.heap z.arrays [] (fun y hy c hc =>
          h.fas hx f hfm c (Or.inr ((h1 y hy).2 c hc))) (by simp)
        simpa using this
  | write j v =>
    simp only [FSys.step]
    cases hy : s.arrs[j]? with
    | none => exact h
    | some y => exact h
  | append k arg =>
    simp only [FSys.step]
    cases hf : s.fas[k]? with
    | none => exact h
    | some f =>
      cases hd : arg.resolve s.arrs s.fas with
      | none => exact h
      | some data =>
        have hfm := List.mem_of_getElem? hf
        obtain ⟨a1, a2⟩ := ha f data hf hd
        obtain ⟨h', f', r, e1, e2, e3, e4, e5, e6, e7⟩ := hAppend_spec zero s.heap f data
          (hs.fas f hfm) (fun ds hds d hd' => ⟨(hs.args hd hds d hd').1, (hs.args hd hds d hd').2.1,
            (hs.args hd hds d hd').2.2 f hfm⟩) a1 a2
        simp only [e1]
        refine unshared_of (x := x) hx (h x hx).1 (h x hx).2.1 ?_
        intro g hg c hc hcx
        have hlt := hs.lt x hxm c hcx
        rcases List.mem_or_eq_of_mem_set hg with hg | rfl
        · exact h.fas hx g hg c hc hcx
        · have hold := h.fas hx f hfm c
          rcases hc with hc | hc
          · rcases e6 c hc with hc | hc
            · exact hold (Or.inl hc) hcx
            · omega
          · rcases e7 c hc with hc | hc | hc | ⟨hfr, ds, hds, d, hd', hc⟩
            · exact hold (Or.inr hc) hcx
            · exact hold (Or.inl hc) hcx
            · omega
            · rcases (resolve_cells hs hd hds d hd').2 c hc with ⟨j, hj, y, hy, hc⟩ | ⟨g', hg', hc⟩
              · by_cases hji : j = i
                · subst hji
                  exact hop ⟨hj, f, hf, hfr⟩
                · exact (h x hx).2.1 j y hy hji c hc hcx
              · exact h.fas hx g' hg' c (Or.inr hc) hcx

end RS
