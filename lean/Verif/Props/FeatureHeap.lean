import Verif.Lemmas.FeatureHeapInv

/-
C108: when programs cannot tell that feature arrays keep references to arrays.
-/
set_option autoImplicit false

namespace RS
variable {K : Type}

/-- C108 (partial: the statements are restricted by `FSys.Allowed`). A program that uses arrays and
feature arrays shows the same content and the same outcomes as if every array were a value: an
append changes the feature array it names and nothing else, a write changes the array it names and
nothing else. -/
theorem C108_partial (zero : K) (ops : List (FOp K)) (h : (FSys.init zero).AllAllowed zero ops) :
    ((FSys.init zero).run zero ops).1.seen = (VSys.run zero ⟨[], []⟩ ops).1 ∧
      ((FSys.init zero).run zero ops).2 = (VSys.run zero ⟨[], []⟩ ops).2 :=
  (run_spec zero ops (FInv.init zero) h).2

/-- A new array shares nothing. -/
theorem C108_new_array (zero : K) (ops : List (FOp K)) (h : (FSys.init zero).AllAllowed zero ops)
    (s : FSys K) (hs : s = ((FSys.init zero).run zero ops).1) (a : NArr K) :
    (s.step zero (.array a)).1.Unshared s.arrs.length := by
  subst hs
  exact unshared_array zero (run_spec zero ops (FInv.init zero) h).1 a

/-- An array that shares nothing keeps sharing nothing, and so may be written to, until a view of
it is made or it becomes the first batch of a feature array. Later batches are copied. -/
theorem C108_unshared (zero : K) (ops : List (FOp K)) (h : (FSys.init zero).AllAllowed zero ops)
    (s : FSys K) (hs : s = ((FSys.init zero).run zero ops).1) (i : ℕ) (hi : i < s.arrs.length)
    (hu : s.Unshared i) (op : FOp K) (ha : s.Allowed zero op) (hop : ¬ op.Shares s i) :
    (s.step zero op).1.Unshared i := by
  subst hs
  exact unshared_step zero (run_spec zero ops (FInv.init zero) h).1
    (List.getElem?_eq_getElem hi) hu op ha hop

theorem growRows_two (a : ℤ) : ∃ m, growRows (NDVal.zeros (0 : ℤ) []) [.leaf a] 2 =
    .leaf a :: .leaf 0 :: List.replicate m (.leaf 0) := by
  refine ⟨sizePreallocation - 1, ?_⟩
  have h : sizePreallocation = (sizePreallocation - 1) + 1 := by decide
  rw [growRows, if_pos (by simp), growRows, if_neg (by
    rw [List.length_append, List.length_replicate]; have : 0 < sizePreallocation := by decide
    simp; omega)]
  conv_lhs => rw [h]
  simp [NDVal.zeros, List.replicate_succ]

/-- Not vacuous: two batches, the second written to afterwards, a slice and an export. -/
example : (FSys.init (0 : ℤ)).AllAllowed 0
    [.array ⟨.float64, [1], .node [.leaf 1]⟩, .array ⟨.float64, [1], .node [.leaf 2]⟩,
      .new [[]], .append 0 (.ndarray 0), .append 0 (.ndarray 1), .write 1 (.node [.leaf 5]),
      .getitem 0 (.slice none none none), .export 0] := by
  obtain ⟨m, hg⟩ := growRows_two 1
  simp [hg, FSys.AllAllowed, FSys.Allowed, HasShape, FSys.init, FSys.step, ravel_node, cells,
    NDVal.ravel, addrs, FArr.new, ArgRef.resolve, hAppend, hAppendLoop, hAppendComp, CellHeap.alloc,
    CellHeap.store, CellHeap.grow, NDVal.unstack, AppendArg.Aligned, AppendArg.comps, FSys.Unshared,
    List.range_succ_eq_map, Comp.count, bcastOk, FArr.Fresh, NDVal.map]
  refine ⟨?_, fun a _ => by omega⟩
  intro j y hy hj
  match j, hj with
  | 0, _ => simp at hy; subst hy; simp [NDVal.ravel]
  | j + 2, _ => simp at hy

/-- The state shown by a program with references and by the program with values. -/
def shown (ops : List (FOp ℤ)) : VSys ℤ := ((FSys.init 0).run 0 ops).1.seen
def asValues (ops : List (FOp ℤ)) : VSys ℤ := (VSys.run 0 ⟨[], []⟩ ops).1

/-- A vector of integers. -/
def vec1 (l : List ℤ) : NArr ℤ := ⟨.float64, [l.length], .node (l.map .leaf)⟩

/-- The caller writes to an array after it was the first batch. -/
def progWrite : List (FOp ℤ) :=
  [.array (vec1 [1]), .new [[]], .append 0 (.ndarray 0), .write 0 (.node [.leaf 2])]

/-- A first append is rejected because its second component is no array; the first component
has been stored nevertheless. The next append writes to the array of the caller. -/
def progRejected : List (FOp ℤ) :=
  [.array (vec1 [1]), .array (vec1 [2]), .new [[], []], .append 0 (.seq [some 0, none]),
    .append 0 (.seq [some 1, some 1])]

/-- The components of the first batch have different lengths. -/
def progUneven : List (FOp ℤ) :=
  [.array (vec1 [1, 2]), .array (vec1 [3]), .new [[], []], .append 0 (.seq [some 0, some 1]),
    .append 0 (.seq [some 1, some 1])]

/-- `g = f[np.int64(0)]`, then `g.append(...)`. -/
def progNpint : List (FOp ℤ) :=
  [.array (vec1 [1, 2]), .array (vec1 [3]), .new [[2], [1]], .append 0 (.seq [some 0, some 1]),
    .getitem 0 (.npint 0), .append 1 (.seq [some 1, some 1])]

/-- C108 is false in general. (1) A write to the array of the caller changes the feature array.
(2)–(4) An append changes an array of the caller. -/
theorem C108_violated :
    ((shown progWrite).fas = [⟨[[]], some [some ⟨.float64, [], [.leaf 2]⟩], 1⟩] ∧
      (asValues progWrite).fas = [⟨[[]], some [some ⟨.float64, [], [.leaf 1]⟩], 1⟩]) ∧
    ((shown progRejected).arrs = [vec1 [2], vec1 [2]] ∧
      (asValues progRejected).arrs = [vec1 [1], vec1 [2]]) ∧
    ((shown progUneven).arrs = [vec1 [1, 3], vec1 [3]] ∧
      (asValues progUneven).arrs = [vec1 [1, 2], vec1 [3]]) ∧
    ((shown progNpint).arrs = [vec1 [1, 3], vec1 [3]] ∧
      (asValues progNpint).arrs = [vec1 [1, 2], vec1 [3]]) := by
  obtain ⟨m, hg⟩ := growRows_two 3
  refine ⟨⟨?_, ?_⟩, ⟨?_, ?_⟩, ⟨?_, ?_⟩, ⟨?_, ?_⟩⟩
  all_goals
    simp [hg, shown, asValues, progWrite, progRejected, progUneven, progNpint, FSys.run, VSys.run,
      FSys.init, FSys.step, VSys.step, vec1, FSys.seen, FArr.map, NArr.map, Buf.map, NDVal.map,
      ravel_node, cells, NDVal.ravel, addrs, FArr.new, ArgRef.resolve, lookupComp, hAppend,
      hAppendLoop, hAppendComp, CellHeap.alloc, CellHeap.store, CellHeap.grow, NDVal.unstack, FArr.append,
      appendLoop, appendComp, FArr.getitem, getComp, normIndex, Comp.tailShape, bcastOk,
      Function.update, List.range_succ_eq_map, pure, Except.pure, bind, Except.bind]

end RS
