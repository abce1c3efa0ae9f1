import Verif.Model.FeatureArray
import Mathlib.Logic.Function.Basic

/-
`_FeatureArray` with references (robuststats/estimation/base.py:27-154). Model/FeatureArray treats
arrays as values; here an array is a shape and a nested list of memory cells, and several arrays
may show the same cells. Slicing, indexing, adding or dropping an axis make a view: they act on
the cells, so that the functions of Model/FeatureArray, applied to cells instead of numbers, model
them. `np.zeros` and `np.concatenate` make new cells; assignment to a slice changes cells.
-/
set_option autoImplicit false

namespace RS

/-- Apply a function to all entries of an array. -/
def NDVal.map {A B : Type} (f : A → B) : NDVal A → NDVal B
  | .leaf x => .leaf (f x)
  | .node l => .node (l.map (NDVal.map f))

/-- Memory: cells are numbered; those below `next` are in use. -/
structure CellHeap (K : Type) where
  next : ℕ
  get : ℕ → K

/-- New cells with the given content. -/
def CellHeap.alloc {K : Type} (h : CellHeap K) (vals : List K) : CellHeap K :=
  ⟨h.next + vals.length, fun a =>
    if a < h.next then h.get a else vals.getD (a - h.next) (h.get a)⟩

/-- Assignment to cells, one after the other. numpy reads the right-hand side before it writes
(it copies if memory overlaps). -/
def CellHeap.store {K : Type} (h : CellHeap K) (dst : List ℕ) (vals : List K) : CellHeap K :=
  ⟨h.next, (dst.zip vals).foldl (fun m p => Function.update m p.1 p.2) h.get⟩

/-- The cells `base, base + 1, …` arranged in C order in the given shape. -/
def addrs : List ℕ → ℕ → NDVal ℕ
  | [], base => .leaf base
  | n :: s, base => .node ((List.range n).map fun i => addrs s (base + i * s.prod))

/-- The cells of a list of rows. -/
def cells {A : Type} (rows : List (NDVal A)) : List A := rows.flatMap NDVal.ravel

/-- base.py:109-113 the growth loop. If there is room nothing happens; otherwise
`np.concatenate` has copied all rows, and zero rows, to a new block. Simplification: the blocks of
the earlier iterations, which nothing refers to any more, are not allocated. -/
def CellHeap.grow {K : Type} (h : CellHeap K) (zero : K) (sh : List ℕ) (rows : List (NDVal ℕ))
    (target : ℕ) : CellHeap K × List (NDVal ℕ) :=
  if rows.length < target then
    let vals := growRows (NDVal.zeros zero sh) (rows.map (NDVal.map h.get)) target
    (h.alloc (cells vals), (addrs (vals.length :: sh) h.next).unstack)
  else (h, rows)

/-- base.py:95-114 the loop body of `append` for one component. The first batch is stored by
reference (line 107, after `d[np.newaxis, ...]`, which is a view); later ones are copied to the
rows `len, …, len + n - 1` of the buffer (line 114). -/
def hAppendComp {K : Type} (zero : K) (h : CellHeap K) (len : ℕ) (sh : List ℕ) (a : Option (Buf ℕ))
    (d : Comp ℕ) : CellHeap K × Option (Buf ℕ) × Py ℕ :=
  match d with
  | .other => (h, a, .error .typeError)
  | .arr d =>
    match a with
    | none =>
      if d.shape.length = sh.length then (h, some ⟨d.dtype, d.shape, [d.val]⟩, .ok 1)
      else if d.shape.length = sh.length + 1 then
        (h, some ⟨d.dtype, d.shape.tail, d.val.unstack⟩, .ok d.val.unstack.length)
      else (h, none, .error .valueError)
    | some b =>
      if d.dtype ≠ b.dtype then (h, a, .error .valueError)
      else if d.shape.length ≠ sh.length ∧ d.shape.length ≠ sh.length + 1 then
        (h, a, .error .valueError)
      else
        let ish := if d.shape.length = sh.length then d.shape else d.shape.tail
        let new := if d.shape.length = sh.length then [d.val] else d.val.unstack
        if b.rows.length < len + new.length ∧ b.ish ≠ sh then (h, a, .error .valueError)
        else
          let g := h.grow zero sh b.rows (len + new.length)
          if bcastOk ish b.ish then
            let vals := new.map (NDVal.map g.1.get)
            (g.1.store (cells ((g.2.drop len).take new.length))
              (cells (if ish = b.ish then vals else vals.map (NDVal.bcast ish b.ish))),
              some ⟨b.dtype, b.ish, g.2⟩, .ok new.length)
          else (g.1, some ⟨b.dtype, b.ish, g.2⟩, .error .valueError)

/-- base.py:95-116 the loop over the components. -/
def hAppendLoop {K : Type} (zero : K) (len : ℕ) :
    CellHeap K → List (List ℕ) → List (Option (Buf ℕ)) → List (Comp ℕ) →
      CellHeap K × List (Option (Buf ℕ)) × Py (Option ℕ)
  | h, sh :: shs, a :: as, d :: ds =>
    match hAppendComp zero h len sh a d with
    | (h', a', .error e) => (h', a' :: as, .error e)
    | (h', a', .ok n) =>
      match hAppendLoop zero len h' shs as ds with
      | (h'', as', .error e) => (h'', a' :: as', .error e)
      | (h'', as', .ok none) => (h'', a' :: as', .ok (some n))
      | (h'', as', .ok (some m)) => (h'', a' :: as', .ok (some m))
  | h, _, as, _ => (h, as, .ok none)

/-- base.py:81-116 `append`. `export` of another feature array gives views of its cells. -/
def hAppend {K : Type} (zero : K) (h : CellHeap K) (f : FArr ℕ) (data : AppendArg ℕ) :
    CellHeap K × FArr ℕ × Py Unit :=
  let data' : Py (List (Comp ℕ)) := match data with
    | .other => .error .typeError
    | .ndarray a => .ok [.arr a]
    | .seq l => .ok l
    | .farr g => match g.export with
      | .error e => .error e
      | .ok (.single a) => .ok [.arr a]
      | .ok (.list l) => .ok (l.map .arr)
  match data' with
  | .error e => (h, f, .error e)
  | .ok l =>
    let arrs := f.array.getD (List.replicate f.shapes.length none)
    if f.shapes.length ≠ l.length then (h, { f with array := some arrs }, .error .valueError)
    else
      match hAppendLoop zero f.len h f.shapes arrs l with
      | (h', arrs', .error e) => (h', { f with array := some arrs' }, .error e)
      | (h', arrs', .ok none) => (h', { f with array := some arrs' }, .error .nameError)
      | (h', arrs', .ok (some n)) => (h', ⟨f.shapes, some arrs', f.len + n⟩, .ok ())

/-! ## Programs that use arrays and feature arrays -/

/-- What is passed to `append`: an array, a list of arrays and other things, a feature array. All
are given by their number. -/
inductive ArgRef where
  | ndarray (i : ℕ)
  | seq (l : List (Option ℕ))
  | farr (j : ℕ)
  | other

/-- The statements of a program. Arrays and feature arrays are numbered in the order in which they
come into being. -/
inductive FOp (K : Type) where
  /-- a new array -/
  | array (a : NArr K)
  /-- the view `x[a:o:s]` of array `i` -/
  | view (i : ℕ) (a o s : Option ℤ)
  /-- `_FeatureArray(*shapes)` -/
  | new (shapes : List (List ℕ))
  /-- `f.append(arg)` -/
  | append (f : ℕ) (arg : ArgRef)
  /-- `f[key]`, a new feature array -/
  | getitem (f : ℕ) (key : Key)
  /-- `f.export()`, one or several arrays -/
  | export (f : ℕ)
  /-- `x[...] = v` for array `i`; `v` has the shape of the array -/
  | write (i : ℕ) (v : NDVal K)

/-- `x[a:o:s]` for an array with at least one axis. -/
def NArr.slice {A : Type} (x : NArr A) (a o s : Option ℤ) : Py (NArr A) :=
  match x.shape with
  | [] => .error .indexError
  | _ :: sh =>
    match sliceIndices x.val.unstack.length a o s with
    | .error e => .error e
    | .ok idx => .ok ⟨x.dtype, idx.length :: sh, .node (idx.filterMap (x.val.unstack[·]?))⟩

/-- The arrays in the result of `export`. -/
def Export.arrays {A : Type} : Export A → List (NArr A)
  | .single a => [a]
  | .list l => l

/-- The state of a program with references. -/
structure FSys (K : Type) where
  heap : CellHeap K
  arrs : List (NArr ℕ)
  fas : List (FArr ℕ)

/-- An entry of a list passed to `append`. -/
def lookupComp {A : Type} (arrs : List (NArr A)) : Option ℕ → Option (Comp A)
  | none => some .other
  | some i => (arrs[i]?).map .arr

/-- Look up the arguments of `append`; `none` if a number is unknown. -/
def ArgRef.resolve {A : Type} (arrs : List (NArr A)) (fas : List (FArr A)) :
    ArgRef → Option (AppendArg A)
  | .ndarray i => (arrs[i]?).map .ndarray
  | .seq l => (l.mapM (lookupComp arrs)).map .seq
  | .farr j => (fas[j]?).map .farr
  | .other => some .other

/-- One statement, with references. Statements about unknown numbers do nothing. -/
def FSys.step {K : Type} (zero : K) (s : FSys K) : FOp K → FSys K × Py Unit
  | .array a =>
    (⟨s.heap.alloc a.val.ravel, s.arrs ++ [⟨a.dtype, a.shape, addrs a.shape s.heap.next⟩], s.fas⟩,
      .ok ())
  | .view i a o st =>
    match s.arrs[i]? with
    | none => (s, .ok ())
    | some x => match x.slice a o st with
      | .error e => (s, .error e)
      | .ok y => (⟨s.heap, s.arrs ++ [y], s.fas⟩, .ok ())
  | .new shapes => (⟨s.heap, s.arrs, s.fas ++ [FArr.new shapes]⟩, .ok ())
  | .append k arg =>
    match s.fas[k]?, arg.resolve s.arrs s.fas with
    | some f, some data =>
      let r := hAppend zero s.heap f data
      (⟨r.1, s.arrs, s.fas.set k r.2.1⟩, r.2.2)
    | _, _ => (s, .ok ())
  | .getitem k key =>
    match s.fas[k]? with
    | none => (s, .ok ())
    | some f => match f.getitem 0 key with
      | .error e => (s, .error e)
      | .ok g => (⟨s.heap, s.arrs, s.fas ++ [g]⟩, .ok ())
  | .export k =>
    match s.fas[k]? with
    | none => (s, .ok ())
    | some f => match f.export with
      | .error e => (s, .error e)
      | .ok x => (⟨s.heap, s.arrs ++ x.arrays, s.fas⟩, .ok ())
  | .write i v =>
    match s.arrs[i]? with
    | none => (s, .ok ())
    | some x => (⟨s.heap.store x.val.ravel v.ravel, s.arrs, s.fas⟩, .ok ())

/-- The state before the first statement. -/
def FSys.init {K : Type} (zero : K) : FSys K := ⟨⟨0, fun _ => zero⟩, [], []⟩

/-- A program: the final state and the outcome of each statement. -/
def FSys.run {K : Type} (zero : K) (s : FSys K) : List (FOp K) → FSys K × List (Py Unit)
  | [] => (s, [])
  | op :: ops =>
    let r := s.step zero op
    let t := r.1.run zero ops
    (t.1, r.2 :: t.2)

end RS
