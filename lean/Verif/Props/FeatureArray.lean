import Verif.Lemmas.FeatureArrayObs
import Verif.Lemmas.FeatureArrayVec

/-
Properties of `_FeatureArray` and `FeaturesEstimation` (C16-C21).
-/
set_option autoImplicit false

namespace RS
variable {K : Type}

/-! ## C16: a feature array behaves like a list of batches -/

/-- After any non-empty sequence of appends of `n`-item batches (same dtypes and item
shapes `sig`), all succeed, `len` is the total and `export` is the concatenation. -/
theorem C16_refines_list (sig : Sig) (hne : sig ≠ []) (zero : K) (h : Hist K) (h0 : h ≠ [])
    (hh : ∀ e ∈ h, Supplies sig e.2.1 e.1 e.2.2) :
    ∃ f, (FArr.new (sig.map Prod.snd)).appendAll zero (h.map Prod.fst) = .ok f ∧
      f.len = (h.map fun e => e.2.1).sum ∧
      f.export = .ok (packedAll sig
        ((List.range sig.length).map fun i => h.flatMap fun e => e.2.2.getD i [])) := by
  obtain ⟨as, h1, h2, _⟩ := hist_run hne zero h h0 hh
  exact ⟨_, h1, rfl, h2.export⟩

/-- The one-component case, spelled out: batches of `rows` given as stacked arrays. -/
theorem C16_one_component (dt : DType) (sh : List ℕ) (zero : K) (batches : List (List (NDVal K)))
    (h0 : batches ≠ []) :
    ∃ f, (FArr.new [sh]).appendAll zero
        (batches.map fun rows => .ndarray ⟨dt, rows.length :: sh, .node rows⟩) = .ok f ∧
      f.len = batches.flatten.length ∧
      f.export = .ok (.single (match batches.flatten with
        | [x] => ⟨dt, sh, x⟩
        | rows => ⟨dt, rows.length :: sh, .node rows⟩)) := by
  let h : Hist K := batches.map fun rows =>
    (.ndarray ⟨dt, rows.length :: sh, .node rows⟩, rows.length, [rows])
  obtain ⟨f, h1, h2, h3⟩ := C16_refines_list [(dt, sh)] (by simp) zero h (by simpa [h] using h0) (by
    intro e he
    obtain ⟨rows, _, rfl⟩ := List.mem_map.1 he
    exact .nd (.cons (.many rows) rfl .nil))
  refine ⟨f, ?_, ?_, ?_⟩
  · simpa [h, Function.comp_def] using h1
  · simpa [h, List.length_flatten, Function.comp_def] using h2
  · have hfl : ([0].map fun i => h.flatMap fun e => e.2.2.getD i []) = [batches.flatten] := by
      simp [h, List.flatMap_def, Function.comp_def]
    rw [h3]
    simp only [List.length_cons, List.length_nil, Nat.zero_add, List.range_one]
    rw [hfl]
    rfl

/-- Non-vacuity: 700 appends of 2-vectors in pairs cross the 1000-row boundary. -/
example : ∃ f : FArr ℂ, (FArr.new [[2]]).appendAll 0
    ((List.replicate 700 (List.replicate 2 (NDVal.node [.leaf (1 : ℂ), .leaf 2]))).map
      fun rows => .ndarray ⟨.complex128, rows.length :: [2], .node rows⟩) = .ok f ∧
    f.len = 1400 := by
  obtain ⟨f, h1, h2, _⟩ := C16_one_component .complex128 [2] (0 : ℂ)
    (List.replicate 700 (List.replicate 2 (NDVal.node [.leaf (1 : ℂ), .leaf 2])))
    (by rw [List.replicate_succ]; exact List.cons_ne_nil _ _)
  refine ⟨f, h1, ?_⟩
  rw [h2, List.length_flatten, List.map_replicate, List.sum_replicate, List.length_replicate]
  rfl

/-! ## C17: rows of `vectorize` -/

/-- Exactly how many rows `vectorize` returns: the capacity of the buffer, which is the size
of the first batch plus the least multiple of 1000 that makes room for all items. The first
`len` rows are the flattened items in order. -/
theorem C17_rows_partial (sig : Sig) (hne : sig ≠ []) (h : Hist ℂ) (h0 : h ≠ [])
    (hh : ∀ e ∈ h, Supplies sig e.2.1 e.1 e.2.2) (hpos : 0 < h.total) :
    ∃ f rows, (FArr.new (sig.map Prod.snd)).appendAll 0 (h.map Prod.fst) = .ok f ∧
      f.vectorize = .ok rows ∧ f.len = h.total ∧
      rows.length = (h.head h0).2.1 + 1000 * ((h.total - (h.head h0).2.1 + 999) / 1000) ∧
      (rows.length = f.len ↔ 1000 ∣ h.total - (h.head h0).2.1) ∧
      ∀ i, i < f.len → rows.getD i [] =
        (List.zipWith (fun (s : DType × List ℕ) (items : List (NDVal ℂ)) =>
          (items[i]?).elim [] (flatItem s.2 items)) sig (h.items sig.length)).flatten := by
  obtain ⟨as, h1, h2, h3⟩ := hist_run hne 0 h h0 hh
  have hle : (h.head h0).2.1 ≤ h.total := by
    cases h with
    | nil => exact absurd rfl h0
    | cons e h => simp [Hist.total]
  obtain ⟨rows, h4, h5, h6⟩ := store_vectorize hne h2 h3 hpos hle
  refine ⟨_, rows, h1, h4, rfl, h5, ?_, h6⟩
  rw [h5]
  simp only
  omega

/-- Two single-item appends: `len` is 2 but `vectorize` returns 1001 rows. -/
theorem C17_violated : ∃ f rows, (FArr.new [[]]).appendAll (0 : ℂ)
      [.ndarray ⟨.complex128, [], .leaf 1⟩, .ndarray ⟨.complex128, [], .leaf 2⟩] = .ok f ∧
    f.vectorize = .ok rows ∧ f.len = 2 ∧ rows.length = 1001 := by
  let h : Hist ℂ := [(.ndarray ⟨.complex128, [], .leaf 1⟩, 1, [[.leaf 1]]),
    (.ndarray ⟨.complex128, [], .leaf 2⟩, 1, [[.leaf 2]])]
  obtain ⟨f, rows, h1, h2, h3, h4, _⟩ := C17_rows_partial [(.complex128, [])] (by simp) h
    (by simp [h]) (by
      intro e he
      simp only [h, List.mem_cons, List.not_mem_nil, or_false] at he
      rcases he with rfl | rfl
      · exact .nd (.cons (.one _) rfl .nil)
      · exact .nd (.cons (.one _) rfl .nil)) (by simp [h, Hist.total])
  refine ⟨f, rows, h1, h2, ?_, ?_⟩
  · rw [h3]; rfl
  · rw [h4]; simp [h, Hist.total]

/-! ## C18: a rejected append leaves no trace -/

/-- Partial: if every component has been filled (with at least `len` rows, which is so after
a successful append of equally long batches), a rejected append changes neither `len` nor
`export` nor any item access, and every later sequence of appends (with components of equal
length; they may fail or succeed) has the same outcomes and leads to the same `len`, `export`
and items as without the rejected call.
Missing: arrays whose first append fails with several components (see `C18_violated`). -/
theorem C18_partial (f : FArr K) (zero : K) (bufs : List (Buf K))
    (ha : f.array = some (bufs.map some)) (hl : bufs.length = f.shapes.length)
    (hlen : ∀ b ∈ bufs, f.len ≤ b.rows.length) (arg : AppendArg K) (e : PyErr)
    (he : (f.append zero arg).2 = .error e)
    (later : List (AppendArg K)) (hal : ∀ a ∈ later, a.Aligned f.shapes) :
    let f' := (f.append zero arg).1
    (f'.runAppends zero later).2 = (f.runAppends zero later).2 ∧
    (f'.runAppends zero later).1.len = (f.runAppends zero later).1.len ∧
    (f'.runAppends zero later).1.export = (f.runAppends zero later).1.export ∧
    ∀ key, (f'.runAppends zero later).1.getitem zero key =
      (f.runAppends zero later).1.getitem zero key := by
  have hb : BufsEq f.len f.shapes (bufs.map some) (bufs.map some) := by
    clear ha he hal
    generalize f.shapes = shs at hl
    induction bufs generalizing shs with
    | nil =>
      cases shs with
      | nil => exact .nil
      | cons => simp at hl
    | cons b bufs ih =>
      cases shs with
      | nil => simp at hl
      | cons sh shs =>
        exact .cons (BufEq.refl _ (hlen b (by simp)))
          (ih (fun b hb => hlen b (by simp [hb])) shs (by simpa using hl))
  obtain ⟨h1, h2⟩ := (failed_obsEq ha hb zero arg he).run zero later hal
  exact ⟨h1, h2.2.1, h2.export, fun key => h2.getitem zero key⟩

/-- Partial: for a fresh array with one component a rejected first append is invisible, too. -/
theorem C18_fresh_partial (sh : List ℕ) (zero : K) (arg : AppendArg K) (e : PyErr)
    (he : ((FArr.new [sh] : FArr K).append zero arg).2 = .error e)
    (later : List (AppendArg K)) :
    let f : FArr K := FArr.new [sh]
    let f' := (f.append zero arg).1
    (f'.runAppends zero later).2 = (f.runAppends zero later).2 ∧
    (f'.runAppends zero later).1.len = (f.runAppends zero later).1.len ∧
    (f'.runAppends zero later).1.export = (f.runAppends zero later).1.export ∧
    ∀ key, (f'.runAppends zero later).1.getitem zero key =
      (f.runAppends zero later).1.getitem zero key := by
  obtain ⟨h1, h2⟩ := (failed_fresh_obsEq sh zero arg he).run zero later (by
    intro a _ ds _
    cases ds with
    | nil => exact ⟨0, by simp⟩
    | cons d ds => exact ⟨d.count sh, by simp [FArr.new]⟩)
  exact ⟨h1, h2.2.1, h2.export, fun key => h2.getitem zero key⟩

/-- The hypotheses of `C18_partial` hold after any non-empty history of aligned appends. -/
theorem C18_reachable (sig : Sig) (hne : sig ≠ []) (zero : K) (h : Hist K) (h0 : h ≠ [])
    (hh : ∀ e ∈ h, Supplies sig e.2.1 e.1 e.2.2) :
    ∃ (f : FArr K) (bufs : List (Buf K)), (FArr.new (sig.map Prod.snd)).appendAll zero (h.map Prod.fst) = .ok f ∧
      f.array = some (bufs.map some) ∧ bufs.length = f.shapes.length ∧
      ∀ b ∈ bufs, f.len ≤ b.rows.length := by
  obtain ⟨as, h1, h2, h3⟩ := hist_run hne zero h h0 hh
  have : ∃ bufs : List (Buf K), as = bufs.map some ∧ bufs.length = sig.length ∧
      ∀ b ∈ bufs, h.total ≤ b.rows.length := by
    clear h1 hne hh h3
    generalize h.items sig.length = its at h2
    induction h2 with
    | nil => exact ⟨[], rfl, rfl, by simp⟩
    | @cons dt sh rows items sig as its h hn t ih =>
      obtain ⟨bufs, e1, e2, e3⟩ := ih
      refine ⟨⟨dt, sh, rows⟩ :: bufs, by simp [e1], by simp [e2], ?_⟩
      intro b hb
      rcases List.mem_cons.1 hb with rfl | hb
      · rw [← h, List.length_take] at hn
        simp only; omega
      · exact e3 b hb
  obtain ⟨bufs, e1, e2, e3⟩ := this
  exact ⟨_, bufs, h1, by simp [e1], by simp [e2], e3⟩

/-- Non-vacuity of `C18_partial`: an append rejected for its dtype after one success. -/
example : ∃ (f : FArr ℂ) (bufs : List (Buf ℂ)) (arg : AppendArg ℂ),
    f.array = some (bufs.map some) ∧ bufs.length = f.shapes.length ∧
    (∀ b ∈ bufs, f.len ≤ b.rows.length) ∧ (f.append 0 arg).2 = .error .valueError :=
  ⟨⟨[[]], some [some ⟨.float64, [], [.leaf 1]⟩], 1⟩, [⟨.float64, [], [.leaf 1]⟩],
    .ndarray ⟨.complex128, [], .leaf 2⟩, rfl, rfl, by simp, by
      simp [FArr.append, appendLoop, appendComp]⟩

/-- A rejected first append on a two-component array fixes the dtype of the first component:
a later batch that a fresh array accepts is then refused. -/
theorem C18_violated :
    let fresh : FArr ℂ := FArr.new [[], []]
    let bad : AppendArg ℂ := .seq [.arr ⟨.float64, [], .leaf 1⟩, .other]
    let good : AppendArg ℂ :=
      .seq [.arr ⟨.complex128, [], .leaf 1⟩, .arr ⟨.complex128, [], .leaf 1⟩]
    (fresh.append 0 bad).2 = .error .typeError ∧
    (fresh.append 0 good).2 = .ok () ∧
    ((fresh.append 0 bad).1.append 0 good).2 = .error .valueError := by
  simp [FArr.append, FArr.new, appendLoop, appendComp, List.replicate_succ]

/-! ## C19: alignment of the components -/

/-- Partial: if the components of every batch have equal length, after any non-empty history
every component holds exactly `len` items. Missing: `append` does not check it. -/
theorem C19_partial (sig : Sig) (hne : sig ≠ []) (zero : K) (h : Hist K) (h0 : h ≠ [])
    (hh : ∀ e ∈ h, Supplies sig e.2.1 e.1 e.2.2) :
    ∃ (f : FArr K) (its : List (List (NDVal K))),
      (FArr.new (sig.map Prod.snd)).appendAll zero (h.map Prod.fst) = .ok f ∧
      f.export = .ok (packedAll sig its) ∧ its.length = sig.length ∧
      ∀ l ∈ its, l.length = f.len := by
  obtain ⟨as, h1, h2, _⟩ := hist_run hne zero h h0 hh
  exact ⟨_, _, h1, h2.export, h2.length.2, h2.each⟩

/-- `append` accepts a batch with 1 item in one component and 2 in the other; `len` becomes
2 although the first component holds one item. -/
theorem C19_violated :
    let r := (FArr.new [[], []] : FArr ℂ).append 0
      (.seq [.arr ⟨.float64, [1], .node [.leaf 1]⟩, .arr ⟨.float64, [2], .node [.leaf 1, .leaf 2]⟩])
    r.2 = .ok () ∧ r.1.len = 2 ∧
    r.1.export = .ok (.list
      [⟨.float64, [], .leaf 1⟩, ⟨.float64, [2], .node [.leaf 1, .leaf 2]⟩]) := by
  simp [FArr.append, FArr.new, appendLoop, appendComp, List.replicate_succ, FArr.export,
    exportComps, NDVal.unstack]

/-- What `len` always is: a successful append adds the batch length of the last component. -/
theorem C19_len_last (f : FArr K) (zero : K) (ds : List (Comp K)) (f' : FArr K)
    (h : f.append zero (.seq ds) = (f', .ok ())) (ha : ∀ as, f.array = some as →
      as.length = f.shapes.length) :
    ∃ sh d, f.shapes.getLast? = some sh ∧ ds.getLast? = some d ∧ f'.len = f.len + d.count sh := by
  rw [FArr.append_eq] at h
  simp only [AppendArg.comps] at h
  by_cases hn : f.shapes.length ≠ ds.length
  · simp [if_pos hn] at h
  · simp only [if_neg hn] at h
    have hal : (f.array.getD (List.replicate f.shapes.length none)).length = f.shapes.length := by
      cases hf : f.array with
      | none => simp
      | some as => simpa using ha as hf
    generalize hy : appendLoop zero f.len f.shapes
      (f.array.getD (List.replicate f.shapes.length none)) ds = y at h
    obtain ⟨y1, y2⟩ := y
    match y2 with
    | .error e => simp at h
    | .ok none => simp at h
    | .ok (some n) =>
      simp only [Prod.mk.injEq, and_true] at h
      rw [← h]
      simp only [Nat.add_left_cancel_iff]
      clear h ha
      generalize f.array.getD (List.replicate f.shapes.length none) = as at *
      rw [not_not] at hn
      generalize f.shapes = shs at *
      clear f'
      induction shs generalizing as ds y1 n with
      | nil => simp [appendLoop] at hy
      | cons sh shs ih =>
        match as, ds, hal, hn with
        | a :: as, d :: ds, hal, hn =>
          have hcnt : ∀ a' m, appendComp zero f.len sh a d = (a', .ok m) → m = d.count sh := by
            intro a' m hm
            cases d with
            | other => simp [appendComp] at hm
            | arr d =>
              cases a with
              | none =>
                simp only [appendComp] at hm
                unfold Comp.count
                split_ifs at hm ⊢ <;> simp_all
              | some b =>
                rw [appendComp_finish] at hm
                unfold finishComp at hm
                unfold Comp.count
                split_ifs at hm ⊢ <;> simp_all
          simp only [appendLoop] at hy
          generalize hx : appendComp zero f.len sh a d = x at *
          obtain ⟨x1, x2⟩ := x
          match x2 with
          | .error e => simp at hy
          | .ok m =>
            generalize hz : appendLoop zero f.len shs as ds = z at *
            obtain ⟨z1, z2⟩ := z
            match z2 with
            | .error e => simp at hy
            | .ok none =>
              simp only [Prod.mk.injEq, Except.ok.injEq, Option.some.injEq] at hy
              match shs, as, ds, hal, hn, hz with
              | [], [], [], _, _, _ =>
                exact ⟨sh, d, rfl, rfl, by rw [← hy.2]; exact hcnt _ _ rfl⟩
              | sh' :: shs, a' :: as, d' :: ds, _, _, hz =>
                exfalso
                simp only [appendLoop] at hz
                split at hz
                · simp at hz
                · split at hz <;> simp at hz
            | .ok (some k) =>
              simp only [Prod.mk.injEq, Except.ok.injEq, Option.some.injEq] at hy
              obtain ⟨sh', d', e1, e2, e3⟩ := ih ds (n := k) (y1 := z1) (as := as) (by simpa using hn)
                (by simpa using hal) hz
              refine ⟨sh', d', ?_, ?_, by rw [← hy.2]; exact e3⟩
              · cases shs with
                | nil => simp at e1
                | cons => simpa using e1
              · cases ds with
                | nil => simp at e2
                | cons => simpa using e2

/-! ## C20: indexing -/

/-- `fa[i]` for a Python int: item `i` (negative indices count from the end), as a one-item
array; out of range is `IndexError`. Missing: numpy integers, see `C20_npint_violated`. -/
theorem C20_int_partial (sig : Sig) (hne : sig ≠ []) (zero : K) (h : Hist K) (h0 : h ≠ [])
    (hh : ∀ e ∈ h, Supplies sig e.2.1 e.1 e.2.2) (hpos : 0 < h.total) :
    ∃ f, (FArr.new (sig.map Prod.snd)).appendAll zero (h.map Prod.fst) = .ok f ∧
      (∀ k < f.len, ∀ i : ℤ, (i = k ∨ i = (k : ℤ) - f.len) →
        ∃ g, f.getitem zero (.int i) = .ok g ∧ g.len = 1 ∧ g.shapes = sig.map Prod.snd ∧
          g.export = .ok (packedAll sig ((h.items sig.length).map fun l => (l[k]?).toList))) ∧
      ∀ i : ℤ, (i < -(f.len : ℤ) ∨ (f.len : ℤ) ≤ i) →
        f.getitem zero (.int i) = .error .indexError := by
  obtain ⟨as, h1, h2, _⟩ := hist_run hne zero h h0 hh
  refine ⟨_, h1, ?_, ?_⟩
  · intro k hk i hi
    have hn : normIndex h.total i = some k := by
      simp only at hi hk
      unfold normIndex
      rcases hi with rfl | rfl
      · rw [if_pos ⟨by omega, by omega⟩]; simp
      · rw [if_neg (by omega), if_pos (by omega)]; simp
    obtain ⟨ds, e1, e2, e3⟩ := h2.getInt hn
    exact getitem_of_comps hne hpos zero e1 e2 e3
  · intro i hi
    have hn : normIndex h.total i = none := by
      simp only at hi
      unfold normIndex
      rw [if_neg (by omega), if_neg (by omega)]
    simp only [FArr.getitem, if_neg hpos.ne', h2.getInt_none hne hn]

/-- `fa[a:o:s]`: the items at the positions Python's slice selects, in that order. The
positions `idx` are characterised by `C20_slice_pos` and `C20_slice_neg`. -/
theorem C20_slice (sig : Sig) (hne : sig ≠ []) (zero : K) (h : Hist K) (h0 : h ≠ [])
    (hh : ∀ e ∈ h, Supplies sig e.2.1 e.1 e.2.2) (hpos : 0 < h.total) (a o s : Option ℤ)
    (hs : s ≠ some 0) :
    ∃ f idx, (FArr.new (sig.map Prod.snd)).appendAll zero (h.map Prod.fst) = .ok f ∧
      sliceIndices f.len a o s = .ok idx ∧
      ∃ g, f.getitem zero (.slice a o s) = .ok g ∧ g.len = idx.length ∧
        g.shapes = sig.map Prod.snd ∧
        g.export = .ok (packedAll sig
          ((h.items sig.length).map fun l => idx.filterMap (l[·]?))) := by
  obtain ⟨as, h1, h2, _⟩ := hist_run hne zero h h0 hh
  have hidx : ∃ idx, sliceIndices h.total a o s = .ok idx := by
    unfold sliceIndices
    have : s.getD 1 ≠ 0 := by
      cases s with
      | none => simp
      | some x => simpa using hs
    simp only [if_neg this]
    split
    · exact ⟨_, rfl⟩
    · exact ⟨_, rfl⟩
  obtain ⟨idx, hidx⟩ := hidx
  obtain ⟨ds, e1, e2, e3⟩ := h2.getSlice hidx (sliceIndices_lt hidx)
  exact ⟨_, idx, h1, hidx, getitem_of_comps hne hpos zero e1 e2 e3⟩

/-- Positive step: increasing positions `j` with `start ≤ j < stop` and `step ∣ j - start`,
where `start` and `stop` (negative: from the end) are clipped to `[0, n]`. -/
theorem C20_slice_pos (n : ℕ) (a o s : Option ℤ) (idx : List ℕ)
    (h : sliceIndices n a o s = .ok idx) (hs : 0 < s.getD 1) :
    idx.Pairwise (· < ·) ∧ ∀ j : ℕ, j ∈ idx ↔
      max 0 (min (n : ℤ) (wrapPos n (a.getD 0))) ≤ j ∧
      (j : ℤ) < max 0 (min (n : ℤ) (wrapPos n (o.getD n))) ∧
      s.getD 1 ∣ (j : ℤ) - max 0 (min (n : ℤ) (wrapPos n (a.getD 0))) :=
  sliceIndices_pos h hs

/-- Negative step: decreasing positions from `start` down to, excluding, `stop`. -/
theorem C20_slice_neg (n : ℕ) (a o s : Option ℤ) (idx : List ℕ)
    (h : sliceIndices n a o s = .ok idx) (hs : s.getD 1 < 0) :
    idx.Pairwise (· > ·) ∧ ∀ j : ℕ, j ∈ idx ↔
      (j : ℤ) ≤ (match a with
        | none => (n : ℤ) - 1 | some x => max (-1) (min ((n : ℤ) - 1) (wrapPos n x))) ∧
      (match o with | none => -1 | some x => max (-1) (min ((n : ℤ) - 1) (wrapPos n x))) < (j : ℤ) ∧
      s.getD 1 ∣ (match a with
        | none => (n : ℤ) - 1 | some x => max (-1) (min ((n : ℤ) - 1) (wrapPos n x))) - (j : ℤ) :=
  sliceIndices_neg h hs

/-- `fa[:]` is everything. -/
theorem C20_slice_all (n : ℕ) : sliceIndices n none none none = .ok (List.range n) := by
  simp only [sliceIndices, Option.getD_none]
  norm_num

/-- Nothing can be indexed in an empty array. -/
theorem C20_empty (f : FArr K) (zero : K) (h : f.len = 0) (key : Key) :
    f.getitem zero key = .error .valueError := by
  simp [FArr.getitem, h]

/-- A numpy integer key is not recognised as an integer: item 0 of a one-item array of
2-vectors comes back as two scalar items. -/
theorem C20_npint_violated :
    let f : FArr ℂ := ((FArr.new [[2]] : FArr ℂ).append 0
      (.ndarray ⟨.complex128, [2], .node [.leaf 1, .leaf 2]⟩)).1
    f.len = 1 ∧ ∃ g, f.getitem 0 (.npint 0) = .ok g ∧ g.len = 2 ∧ g.shapes = [[]] := by
  simp [FArr.append, FArr.new, appendLoop, appendComp, FArr.getitem, getComp,
    normIndex, NDVal.unstack, Comp.tailShape, pure, Except.pure, bind, Except.bind]

/-! ## C21: FeaturesEstimation -/

theorem isBatches_one (sig : Sig) (vs : List (NDVal K)) (h : vs.length = sig.length) :
    IsBatches 1 sig ((List.zipWith (fun s v => (⟨s.1, s.2, v⟩ : NArr K)) sig vs).map Comp.arr)
      (vs.map fun v => [v]) := by
  induction sig generalizing vs with
  | nil => simp at h; subst h; exact .nil
  | cons s sig ih =>
    match vs, h with
    | v :: vs, h => exact .cons (.one v) rfl (ih vs (by simpa using h))

theorem featureEstimation_ok {X : Type} (sig : Sig) (hne : sig ≠ []) (zero : K)
    (est : X → Py (List (NArr K))) (vs : List (NDVal K)) (x : X) (hlen : vs.length = sig.length)
    (hest : est x = .ok (List.zipWith (fun s v => ⟨s.1, s.2, v⟩) sig vs)) :
    ∃ as, featureEstimation zero est x = .ok ⟨sig.map Prod.snd, some as, 1⟩ ∧
      Store 1 sig as (vs.map fun v => [v]) := by
  obtain ⟨as, e1, _, e2⟩ := (Supplies.seq (isBatches_one sig vs hlen)).first hne zero
  refine ⟨as, ?_, e2⟩
  have hsh : (List.zipWith (fun s v => (⟨s.1, s.2, v⟩ : NArr K)) sig vs).map NArr.shape =
      sig.map Prod.snd := by
    apply List.ext_getElem
    · simp [hlen]
    · intro i h1 h2; simp
  simp only [featureEstimation, hest, hsh, e1]

/-- One feature per trial, in order: if the estimator computes on each trial `x` the arrays
`feat x` (dtypes and shapes `sig`, one array per manifold), the result has as many items as
trials, and component `i` exports the `i`-th arrays of all trials in order. -/
theorem C21_transform {X : Type} (sig : Sig) (hne : sig ≠ []) (zero : K)
    (est : X → Py (List (NArr K))) (feat : X → List (NDVal K)) (xs : List X) (hxs : xs ≠ [])
    (hlen : ∀ x ∈ xs, (feat x).length = sig.length)
    (hest : ∀ x ∈ xs, est x = .ok (List.zipWith (fun s v => ⟨s.1, s.2, v⟩) sig (feat x))) :
    ∃ f, featuresTransform zero est xs = .ok f ∧ f.len = xs.length ∧
      f.shapes = sig.map Prod.snd ∧
      f.export = .ok (packedAll sig
        ((List.range sig.length).map fun i => xs.flatMap fun x => ((feat x)[i]?).toList)) := by
  -- the results of the workers, as a history
  have hmap : ∀ ys : List X, (∀ y ∈ ys, y ∈ xs) → ∃ h : Hist K,
      ∃ gs : List (FArr K), ys.mapM (featureEstimation zero est) = .ok gs ∧
      gs.map AppendArg.farr = h.map Prod.fst ∧
      (∀ e ∈ h, Supplies sig e.2.1 e.1 e.2.2) ∧
      h.map Prod.snd = ys.map fun y => (1, (feat y).map fun v => [v]) := by
    intro ys
    induction ys with
    | nil => exact fun _ => ⟨[], [], rfl, rfl, by simp, rfl⟩
    | cons y ys ih =>
      intro hy
      obtain ⟨h, gs, h1, h2, h3, h4⟩ := ih fun y' hy' => hy y' (by simp [hy'])
      obtain ⟨as, e1, e2⟩ := featureEstimation_ok sig hne zero est (feat y) y
        (hlen y (hy y (by simp))) (hest y (hy y (by simp)))
      refine ⟨(.farr ⟨sig.map Prod.snd, some as, 1⟩, 1, (feat y).map fun v => [v]) :: h,
        ⟨sig.map Prod.snd, some as, 1⟩ :: gs, ?_, ?_, ?_, ?_⟩
      · rw [List.mapM_cons, e1, h1]; rfl
      · simp [h2]
      · intro e he
        rcases List.mem_cons.1 he with rfl | he
        · exact .fa e2.export e2.length.2 e2.each
        · exact h3 e he
      · simp [h4]
  match xs, hxs with
  | x :: xs, _ =>
    obtain ⟨as, e1, e2⟩ := featureEstimation_ok sig hne zero est (feat x) x
        (hlen x (by simp)) (hest x (by simp))
    obtain ⟨h, gs, h1, h2, h3, h4⟩ := hmap xs fun y hy => by simp [hy]
    obtain ⟨as', h5, h6, _⟩ := e2.appendAll hne zero h h3
    have htot : h.total = xs.length := by
      have : h.map (fun e => e.2.1) = (h.map Prod.snd).map Prod.fst := by simp
      rw [Hist.total, this, h4]
      simp [Function.comp_def]
    refine ⟨⟨sig.map Prod.snd, some as', 1 + h.total⟩, ?_, ?_, rfl, ?_⟩
    · simp only [featuresTransform, List.mapM_cons, e1, h1]
      rw [← h2] at h5
      exact h5
    · simp [htot, add_comm]
    · rw [h6.export]
      congr 2
      apply List.ext_getElem
      · simp [Hist.items, hlen x (by simp)]
      · intro i i1 i2
        have hi : i < sig.length := by simpa using i2
        simp only [List.getElem_zipWith, List.getElem_map, Hist.items, List.getElem_range,
          List.flatMap_cons, List.getElem?_eq_getElem ((hlen x (by simp)).symm ▸ hi),
          Option.toList_some]
        congr 1
        have hf : ∀ e : Hist K, (e.flatMap fun e => e.2.2.getD i []) =
            (e.map Prod.snd).flatMap fun p => p.2.getD i [] := by
          intro e; rw [List.flatMap_map]
        rw [hf, h4, List.flatMap_map]
        apply List.flatMap_congr
        intro y hy
        simp [List.getD, List.getElem?_eq_getElem ((hlen y (by simp [hy])).symm ▸ hi)]

/-- No trial: `features_list[0]` raises `IndexError`. -/
theorem C21_no_trial {X : Type} (zero : K) (est : X → Py (List (NArr K))) :
    featuresTransform zero est [] = .error .indexError := rfl

/-- Non-vacuity: 1500 trials of an estimator with a vector and a scalar feature. -/
example : ∃ f : FArr ℂ, featuresTransform 0
    (fun n : ℕ => .ok [⟨.complex128, [1], .node [.leaf (n : ℂ)]⟩, ⟨.float64, [], .leaf 1⟩])
    (List.range 1500) = .ok f ∧ f.len = 1500 := by
  obtain ⟨f, h1, h2, _⟩ := C21_transform [(.complex128, [1]), (.float64, [])] (by simp) (0 : ℂ)
    (fun n : ℕ => .ok [⟨.complex128, [1], .node [.leaf (n : ℂ)]⟩, ⟨.float64, [], .leaf 1⟩])
    (fun n => [.node [.leaf (n : ℂ)], .leaf 1]) (List.range 1500)
    (fun h => by have := congrArg List.length h; rw [List.length_range] at this; cases this)
    (fun _ _ => rfl) (fun _ _ => rfl)
  exact ⟨f, h1, by rw [h2, List.length_range]⟩

/-! ## C129: the text of a feature array -/

/-- Spec: the stack of the items of one component. -/
def stackOf (s : DType × List ℕ) (items : List (NDVal K)) : NArr K :=
  ⟨s.1, items.length :: s.2, .node items⟩

theorem store_shown {len : ℕ} {sig : Sig} {as : List (Option (Buf K))}
    {its : List (List (NDVal K))} (hs : Store len sig as its) (zero : K) (cap : ℕ)
    (hc : ∀ b, some b ∈ as → b.rows.length = cap ∧
      ∀ v ∈ b.rows.drop len, v = NDVal.zeros zero b.ish) :
    as.map (fun a => a.map fun b : Buf K =>
        (⟨b.dtype, b.rows.length :: b.ish, .node b.rows⟩ : NArr K)) =
      List.zipWith (fun s items => some (stackOf s
        (items ++ List.replicate (cap - len) (NDVal.zeros zero s.2)))) sig its := by
  induction hs with
  | nil => rfl
  | @cons dt sh rows items sig as its hr hl _ ih =>
    simp only [List.map_cons, List.zipWith_cons_cons, Option.map_some]
    rw [ih fun b hb => hc b (by simp [hb])]
    obtain ⟨h1, h2⟩ := hc ⟨dt, sh, rows⟩ (by simp)
    have e : rows = items ++ List.replicate (cap - len) (NDVal.zeros zero sh) := by
      conv_lhs => rw [← List.take_append_drop len rows, hr]
      congr 1
      rw [List.eq_replicate_iff]
      exact ⟨by rw [List.length_drop, h1], h2⟩
    simp only [stackOf]
    rw [← e]

/-- Exactly what `str` and `repr` show after a history of appends: in each component the
items, followed by the unused rows of the buffer, which are zero. Their number is what is
missing to the next multiple of 1000 after the first batch. -/
theorem C129_shown (sig : Sig) (hne : sig ≠ []) (zero : K) (h : Hist K) (h0 : h ≠ [])
    (hh : ∀ e ∈ h, Supplies sig e.2.1 e.1 e.2.2) :
    ∃ f, (FArr.new (sig.map Prod.snd)).appendAll zero (h.map Prod.fst) = .ok f ∧
      f.shown = some (List.zipWith (fun s items => some (stackOf s (items ++
        List.replicate (1000 * ((h.total - (h.head h0).2.1 + 999) / 1000) -
          (h.total - (h.head h0).2.1)) (NDVal.zeros zero s.2)))) sig (h.items sig.length)) := by
  obtain ⟨as, h1, h2, h3⟩ := hist_run hne zero h h0 hh
  have hle : (h.head h0).2.1 ≤ h.total := by
    cases h with
    | nil => exact absurd rfl h0
    | cons e h => simp [Hist.total]
  refine ⟨_, h1, ?_⟩
  simp only [FArr.shown, Option.map_some, Option.some.injEq]
  rw [store_shown h2 zero _ fun b hb => ⟨h3.eq b hb hle, (h3 b hb).2⟩]
  have hk : (h.head h0).2.1 + 1000 * ((h.total - (h.head h0).2.1 + 999) / 1000) - h.total =
      1000 * ((h.total - (h.head h0).2.1 + 999) / 1000) - (h.total - (h.head h0).2.1) := by
    omega
  rw [hk]

/-- Partial: the text shows exactly the items when there is one batch, or more generally
when the items after the first batch fill up a multiple of 1000 rows. -/
theorem C129_partial (sig : Sig) (hne : sig ≠ []) (zero : K) (h : Hist K) (h0 : h ≠ [])
    (hh : ∀ e ∈ h, Supplies sig e.2.1 e.1 e.2.2) (hd : 1000 ∣ h.total - (h.head h0).2.1) :
    ∃ f, (FArr.new (sig.map Prod.snd)).appendAll zero (h.map Prod.fst) = .ok f ∧
      f.shown = some (List.zipWith (fun s items => some (stackOf s items)) sig
        (h.items sig.length)) := by
  obtain ⟨f, h1, h2⟩ := C129_shown sig hne zero h h0 hh
  refine ⟨f, h1, ?_⟩
  rw [h2]
  have : 1000 * ((h.total - (h.head h0).2.1 + 999) / 1000) - (h.total - (h.head h0).2.1) = 0 := by
    omega
  simp [this]

/-- Two arrays with the same items whose texts differ: the items 1, 2 appended at once or one
after the other. The second text shows 999 more zeros. -/
theorem C129_violated : ∃ f g : FArr ℂ,
    (FArr.new [[]]).appendAll 0
      [.ndarray ⟨.complex128, [2], .node [.leaf 1, .leaf 2]⟩] = .ok f ∧
    (FArr.new [[]]).appendAll 0
      [.ndarray ⟨.complex128, [], .leaf 1⟩, .ndarray ⟨.complex128, [], .leaf 2⟩] = .ok g ∧
    f.export = g.export ∧ f.len = g.len ∧
    f.shown = some [some ⟨.complex128, [2], .node [.leaf 1, .leaf 2]⟩] ∧
    g.shown = some [some ⟨.complex128, [1001],
      .node ([.leaf 1, .leaf 2] ++ List.replicate 999 (.leaf 0))⟩] := by
  let h1 : Hist ℂ := [(.ndarray ⟨.complex128, [2], .node [.leaf 1, .leaf 2]⟩, 2,
    [[.leaf 1, .leaf 2]])]
  let h2 : Hist ℂ := [(.ndarray ⟨.complex128, [], .leaf 1⟩, 1, [[.leaf 1]]),
    (.ndarray ⟨.complex128, [], .leaf 2⟩, 1, [[.leaf 2]])]
  have a1 : ∀ e ∈ h1, Supplies [(.complex128, [])] e.2.1 e.1 e.2.2 := by
    intro e he
    simp only [h1, List.mem_cons, List.not_mem_nil, or_false] at he
    subst he
    exact .nd (.cons (IsBatch.many [NDVal.leaf 1, NDVal.leaf 2]) rfl .nil)
  have a2 : ∀ e ∈ h2, Supplies [(.complex128, [])] e.2.1 e.1 e.2.2 := by
    intro e he
    simp only [h2, List.mem_cons, List.not_mem_nil, or_false] at he
    rcases he with rfl | rfl
    · exact .nd (.cons (.one _) rfl .nil)
    · exact .nd (.cons (.one _) rfl .nil)
  obtain ⟨f, f1, f2, f3⟩ := C16_refines_list [(.complex128, [])] (by simp) (0 : ℂ) h1
    (by simp [h1]) a1
  obtain ⟨g, g1, g2, g3⟩ := C16_refines_list [(.complex128, [])] (by simp) (0 : ℂ) h2
    (by simp [h2]) a2
  obtain ⟨f', f1', f4⟩ := C129_shown [(.complex128, [])] (by simp) (0 : ℂ) h1 (by simp [h1]) a1
  obtain ⟨g', g1', g4⟩ := C129_shown [(.complex128, [])] (by simp) (0 : ℂ) h2 (by simp [h2]) a2
  have ef : f' = f := by rw [f1] at f1'; cases f1'; rfl
  have eg : g' = g := by rw [g1] at g1'; cases g1'; rfl
  subst ef
  subst eg
  refine ⟨f', g', f1, g1, ?_, ?_, ?_, ?_⟩
  · rw [f3, g3]; rfl
  · rw [f2, g2]; rfl
  · rw [f4]
    simp [h1, Hist.total, Hist.items, stackOf]
  · rw [g4]
    have hk : 1000 * ((h2.total - (h2.head (by simp [h2])).2.1 + 999) / 1000) -
        (h2.total - (h2.head (by simp [h2])).2.1) = 999 := by
      simp [h2, Hist.total]
    rw [hk]
    have hi : Hist.items 1 h2 = [[NDVal.leaf 1, NDVal.leaf 2]] := rfl
    simp only [List.length_cons, List.length_nil, Nat.zero_add, hi, List.zipWith_cons_cons,
      List.zipWith_nil_left, stackOf, List.length_append, List.length_replicate, NDVal.zeros]

/-- Before any append the text is the one of `None`. -/
theorem C129_new (shapes : List (List ℕ)) : (FArr.new shapes : FArr K).shown = none := rfl

/-! ## The hypotheses can be met -/

/-- Two components, one of vectors and one of scalars; three items appended in two calls. -/
def demoHist : Hist ℂ :=
  [(.seq [.arr ⟨.complex128, [2, 2], .node [.node [.leaf 1, .leaf 2], .node [.leaf 3, .leaf 4]]⟩,
      .arr ⟨.float64, [2], .node [.leaf 5, .leaf 6]⟩], 2,
    [[.node [.leaf 1, .leaf 2], .node [.leaf 3, .leaf 4]], [.leaf 5, .leaf 6]]),
   (.seq [.arr ⟨.complex128, [2], .node [.leaf 7, .leaf 8]⟩, .arr ⟨.float64, [], .leaf 9⟩], 1,
    [[.node [.leaf 7, .leaf 8]], [.leaf 9]])]

theorem demoHist_ok : ∀ e ∈ demoHist,
    Supplies [(.complex128, [2]), (.float64, [])] e.2.1 e.1 e.2.2 := by
  intro e he
  simp only [demoHist, List.mem_cons, List.not_mem_nil, or_false] at he
  rcases he with rfl | rfl
  · exact .seq (.cons (.many [_, _]) rfl (.cons (.many [_, _]) rfl .nil))
  · exact .seq (.cons (.one _) rfl (.cons (.one _) rfl .nil))

/-- C17, C19, C20: rows, export and a reversing slice of that history. -/
example : ∃ f rows, (FArr.new [[2], []]).appendAll (0 : ℂ) (demoHist.map Prod.fst) = .ok f ∧
    f.vectorize = .ok rows ∧ f.len = 3 ∧ rows.length = 1002 ∧ rows.getD 2 [] = [7, 8, 9] := by
  obtain ⟨f, rows, h1, h2, h3, h4, -, h5⟩ := C17_rows_partial _ (by simp) demoHist (by simp [demoHist])
    demoHist_ok (by decide)
  have hl : f.len = 3 := h3
  refine ⟨f, rows, h1, h2, hl, h4, ?_⟩
  rw [h5 2 (by omega)]
  simp [Hist.items, demoHist, List.range_succ, flatItem, NDVal.ravel]

example : ∃ f, (FArr.new [[2], []]).appendAll (0 : ℂ) (demoHist.map Prod.fst) = .ok f ∧
    ∃ g, f.getitem 0 (.slice none none (some (-2))) = .ok g ∧ g.len = 2 := by
  obtain ⟨f, idx, h1, h2, g, h3, h4, -⟩ := C20_slice _ (by simp) (0 : ℂ) demoHist
    (by simp [demoHist]) demoHist_ok (by decide) none none (some (-2)) (by simp)
  obtain ⟨f', _, h1', -, h5, -⟩ := C17_rows_partial _ (by simp) demoHist (by simp [demoHist])
    demoHist_ok (by decide)
  have e : f' = f := by rw [h1] at h1'; exact (Except.ok.inj h1').symm
  rw [e] at h5
  refine ⟨f, h1, g, h3, ?_⟩
  have h6 : f.len = 3 := h5
  rw [h6] at h2
  have h7 : idx = [2, 0] := (Except.ok.inj (h2.symm.trans (by decide)))
  rw [h4, h7]; rfl

end RS
