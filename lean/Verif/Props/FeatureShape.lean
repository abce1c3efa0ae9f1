import Verif.Lemmas.FeatureArray

/-
C107: `shape`, `dtype` and `nb_manifolds` of a feature array describe what it holds. `shape`
reports the declared item shape; the first batch is not compared with it.
-/
set_option autoImplicit false

namespace RS
variable {K : Type}

theorem Store.dtypes {n : ℕ} {sig : Sig} {as : List (Option (Buf K))}
    {its : List (List (NDVal K))} (h : Store n sig as its) :
    (as.mapM fun a => match a with
      | none => (.error .attributeError : Py DType)
      | some b => .ok b.dtype) = .ok (sig.map Prod.fst) := by
  induction h with
  | nil => rfl
  | cons _ _ _ ih => rw [List.mapM_cons, ih]; rfl

/-- If all batches have the declared item shapes, then after any history `shape` and `dtype` are
those of the arrays the items are stacked in (the export without removal of a batch axis of
length one); an array without items has `shape` 0 and `dtype` `()`.
Missing: first batches of another shape. -/
theorem C107_partial (sig : Sig) (hne : sig ≠ []) (zero : K) (h : Hist K) (h0 : h ≠ [])
    (hh : ∀ e ∈ h, Supplies sig e.2.1 e.1 e.2.2) :
    ∃ f, (FArr.new (sig.map Prod.snd)).appendAll zero (h.map Prod.fst) = .ok f ∧
      f.nbManifolds = sig.length ∧
      ((h.map fun e => e.2.1).sum = 0 → f.shape = .int 0 ∧ f.dtype = .ok []) ∧
      ((h.map fun e => e.2.1).sum ≠ 0 →
        f.shape = .tuples (sig.map fun s => (h.map fun e => e.2.1).sum :: s.2) ∧
        f.dtype = .ok (sig.map Prod.fst) ∧
        ∃ its, f.export = .ok (packedAll sig its) ∧ its.length = sig.length ∧
          ∀ l ∈ its, l.length = (h.map fun e => e.2.1).sum) := by
  obtain ⟨as, h1, h2, _⟩ := hist_run hne zero h h0 hh
  refine ⟨_, h1, by simp [FArr.nbManifolds], fun ht => ?_, fun ht => ⟨?_, ?_, _, h2.export, h2.length.2, h2.each⟩⟩
  · have ht' : h.total = 0 := ht
    simp [FArr.shape, FArr.dtype, ht']
  · have ht' : h.total ≠ 0 := ht
    simp only [FArr.shape, if_neg ht', List.map_map]
    rfl
  · have ht' : h.total ≠ 0 := ht
    simp only [FArr.dtype, if_neg ht']
    exact h2.dtypes

/-- Non-vacuity: a history of two batches. -/
example : ∃ h : Hist ℂ, h ≠ [] ∧ (∀ e ∈ h, Supplies [(.complex128, [2])] e.2.1 e.1 e.2.2) ∧
    (h.map fun e => e.2.1).sum = 3 := by
  let v : NDVal ℂ := .node [.leaf 1, .leaf 2]
  refine ⟨[(.ndarray ⟨.complex128, [2, 2], .node [v, v]⟩, 2, [[v, v]]),
    (.seq [.arr ⟨.complex128, [2], v⟩], 1, [[v]])], by simp, ?_, rfl⟩
  intro e he
  simp only [List.mem_cons, List.not_mem_nil, or_false] at he
  rcases he with rfl | rfl
  · exact .nd (.cons (.many [v, v]) rfl .nil)
  · exact .seq (.cons (.one v) rfl .nil)

/-- A first batch of `n` items whose shape `ish` is not the declared one, but has as many
dimensions, is accepted; `shape` reports the declared one, and no further item is ever accepted,
not even one of the declared shape. -/
theorem C107_first_batch (dt : DType) (sh ish : List ℕ) (hd : ish.length = sh.length)
    (hne : ish ≠ sh) (zero : K) (rows : List (NDVal K)) (hpos : rows ≠ []) :
    ∃ f, (FArr.new [sh]).append zero (.ndarray ⟨dt, rows.length :: ish, .node rows⟩) = (f, .ok ()) ∧
      f.shape = .tuples [rows.length :: sh] ∧
      f.export = .ok (packedAll [(dt, ish)] [rows]) ∧
      ∀ dt' sh' (new : List (NDVal K)), new ≠ [] →
        f.append zero (.ndarray ⟨dt', new.length :: sh', .node new⟩) = (f, .error .valueError) := by
  have hl : rows.length ≠ 0 := by simpa using hpos
  refine ⟨⟨[sh], some [some ⟨dt, ish, rows⟩], rows.length⟩, ?_, ?_, ?_, ?_⟩
  · simp [FArr.append, FArr.new, appendLoop, appendComp, hd, NDVal.unstack]
  · simp [FArr.shape, hpos]
  · match rows, hl with
    | [x], _ => simp [FArr.export, exportComps, packedAll, packed]
    | x :: y :: rows, _ => simp [FArr.export, exportComps, packedAll, packed]
  · intro dt' sh' new hnew
    have hn : new.length ≠ 0 := by simpa using hnew
    simp only [FArr.append, Option.getD_some, List.length_cons, List.length_nil, ne_eq,
      not_true_eq_false, if_false, appendLoop, appendComp]
    by_cases h1 : dt' = dt
    · simp only [h1, not_true_eq_false, if_false]
      by_cases h2 : ¬ sh'.length + 1 = sh.length ∧ ¬ sh'.length + 1 = sh.length + 1
      · rw [if_pos h2]
      · have h3 : 0 < (if sh'.length + 1 = sh.length then
            [NDVal.node new] else (NDVal.node new).unstack).length := by
          split
          · simp
          · simp [NDVal.unstack]; omega
        rw [if_neg h2, if_pos ⟨by omega, hne⟩]
    · simp [h1]

/-- The property fails: declared 3 × 3, holding a 2 × 2 matrix, `shape` says `((1, 3, 3),)`, and a
3 × 3 matrix is refused. -/
theorem C107_violated :
    let two : NArr ℂ := ⟨.complex128, [2, 2], .node [.node [.leaf 1, .leaf 0], .node [.leaf 0, .leaf 1]]⟩
    let r := (FArr.new [[3, 3]] : FArr ℂ).append 0 (.ndarray two)
    r.2 = .ok () ∧ r.1.shape = .tuples [[1, 3, 3]] ∧ r.1.export = .ok (.single two) ∧
    (r.1.append 0 (.ndarray ⟨.complex128, [3, 3], NDVal.zeros 0 [3, 3]⟩)).2 = .error .valueError := by
  simp [FArr.append, FArr.new, appendLoop, appendComp, FArr.export, exportComps, FArr.shape]

end RS
