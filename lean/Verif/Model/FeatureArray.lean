import Mathlib.Data.Complex.Basic
import Mathlib.Analysis.Complex.Norm
import Verif.Model.Py

/-
Model of `_FeatureArray` and `FeaturesEstimation` (robuststats/estimation/base.py:27-219).

Arrays are nested lists with an explicit shape and dtype. Simplification: values, not
references (the class stores the caller's array of the very first append by reference);
Model/FeatureHeap has the references, and C108 says when they matter.
-/
set_option autoImplicit false

namespace RS

/-- numpy dtypes, as far as they are compared. -/
inductive DType where
  | int64
  | float64
  | complex128
  | other (name : ℕ)
  deriving DecidableEq

/-- The nested-list content of an n-dimensional array. -/
inductive NDVal (K : Type) where
  | leaf (x : K)
  | node (l : List (NDVal K))

namespace NDVal
variable {K : Type}

/-- The sub-arrays along the first axis. -/
def unstack : NDVal K → List (NDVal K)
  | leaf _ => []
  | node l => l

/-- `np.zeros(shape)` -/
def zeros (zero : K) : List ℕ → NDVal K
  | [] => leaf zero
  | n :: s => node (List.replicate n (zeros zero s))

/-- Broadcasting of a value of shape `src` to shape `dst` (same number of dimensions,
compatible by `bcastOk`). -/
def bcast : (src dst : List ℕ) → NDVal K → NDVal K
  | s :: ss, d :: ds, node l =>
      if s = d then node (l.map (bcast ss ds))
      else match l with
        | [] => node []
        | x :: _ => node (List.replicate d (bcast ss ds x))
  | _, _, v => v

/-- The entry of a matrix-shaped value. -/
def entry (d : K) (v : NDVal K) (i j : ℕ) : K :=
  match v.unstack[i]? with
  | some r => match r.unstack[j]? with
    | some (leaf x) => x
    | _ => d
  | none => d

/-- All leaves in C order. -/
def ravel : NDVal K → List K
  | leaf x => [x]
  | node l => l.flatMap ravel

end NDVal

/-- Can an array of shape `src` be assigned to a slot of shape `dst` with as many
dimensions? Each dimension must agree or be 1 in the source. -/
def bcastOk : List ℕ → List ℕ → Bool
  | [], [] => true
  | s :: ss, d :: ds => (s == d || s == 1) && bcastOk ss ds
  | _, _ => false

/-- An ndarray. -/
structure NArr (K : Type) where
  dtype : DType
  shape : List ℕ
  val : NDVal K

/-- What may stand in a list given to `append`: an ndarray or something else. -/
inductive Comp (K : Type) where
  | arr (a : NArr K)
  | other

/-- One component buffer: dtype, shape of an item, items along the first axis. -/
structure Buf (K : Type) where
  dtype : DType
  ish : List ℕ
  rows : List (NDVal K)

/-- base.py:30-35 the attributes of `_FeatureArray`. -/
structure FArr (K : Type) where
  shapes : List (List ℕ)
  array : Option (List (Option (Buf K)))
  len : ℕ

/-- Argument of `append`. -/
inductive AppendArg (K : Type) where
  | ndarray (a : NArr K)
  | seq (l : List (Comp K))
  | farr (f : FArr K)
  | other

/-- base.py:30-35 `__init__`. -/
def FArr.new {K : Type} (shapes : List (List ℕ)) : FArr K := ⟨shapes, none, 0⟩

/-- base.py:33 `_size_preallocation = int(1e3)` -/
def sizePreallocation : ℕ := 1000

/-- base.py:109-113 the growth loop: zero rows are added 1000 at a time until there are
at least `target` rows. -/
def growRows {K : Type} (z : NDVal K) (rows : List (NDVal K)) (target : ℕ) : List (NDVal K) :=
  if rows.length < target then
    growRows z (rows ++ List.replicate sizePreallocation z) target
  else rows
termination_by target - rows.length
decreasing_by
  rw [List.length_append, List.length_replicate]
  unfold sizePreallocation
  omega

/-- base.py:114 `self._array[i][len(self):len(self)+len(d)] = d` -/
def writeRows {K : Type} (rows : List (NDVal K)) (pos : ℕ) (new : List (NDVal K)) :
    List (NDVal K) :=
  rows.take pos ++ new ++ rows.drop (pos + new.length)

/-- base.py:95-114 the loop body of `append` for one component: `sh` is the declared item
shape, `a` the buffer, `d` the new data. Returns the new buffer (also when an exception
is raised half way) and the number of items of the batch or the exception. -/
def appendComp {K : Type} (zero : K) (len : ℕ) (sh : List ℕ) (a : Option (Buf K)) (d : Comp K) :
    Option (Buf K) × Py ℕ :=
  match d with
  | .other => (a, .error .typeError)
  | .arr d =>
    match a with
    | none =>
      if d.shape.length = sh.length then (some ⟨d.dtype, d.shape, [d.val]⟩, .ok 1)
      else if d.shape.length = sh.length + 1 then
        (some ⟨d.dtype, d.shape.tail, d.val.unstack⟩, .ok d.val.unstack.length)
      else (none, .error .valueError)
    | some b =>
      if d.dtype ≠ b.dtype then (a, .error .valueError)
      else if d.shape.length ≠ sh.length ∧ d.shape.length ≠ sh.length + 1 then
        (a, .error .valueError)
      else
        let ish := if d.shape.length = sh.length then d.shape else d.shape.tail
        let new := if d.shape.length = sh.length then [d.val] else d.val.unstack
        if b.rows.length < len + new.length ∧ b.ish ≠ sh then (a, .error .valueError)
        else
          let rows := growRows (NDVal.zeros zero sh) b.rows (len + new.length)
          if bcastOk ish b.ish then
            (some ⟨b.dtype, b.ish, writeRows rows len
              (if ish = b.ish then new else new.map (NDVal.bcast ish b.ish))⟩, .ok new.length)
          else (some ⟨b.dtype, b.ish, rows⟩, .error .valueError)

/-- base.py:95-116 the loop over the components; the batch length of the last component
is what is added to `_len`. `none` stands for an empty loop. -/
def appendLoop {K : Type} (zero : K) (len : ℕ) :
    List (List ℕ) → List (Option (Buf K)) → List (Comp K) →
      List (Option (Buf K)) × Py (Option ℕ)
  | sh :: shs, a :: as, d :: ds =>
    match appendComp zero len sh a d with
    | (a', .error e) => (a' :: as, .error e)
    | (a', .ok n) =>
      match appendLoop zero len shs as ds with
      | (as', .error e) => (a' :: as', .error e)
      | (as', .ok none) => (a' :: as', .ok (some n))
      | (as', .ok (some m)) => (a' :: as', .ok (some m))
  | _, as, _ => (as, .ok none)

/-- base.py:147-154 `export`, the list part: each component cut to `len` rows, the batch
axis removed when there is exactly one row. -/
def exportComps {K : Type} (len : ℕ) : List (Option (Buf K)) → Py (List (NArr K))
  | [] => .ok []
  | none :: _ => .error .typeError
  | some b :: rest =>
    let rows := b.rows.take len
    let out : NArr K := match rows with
      | [x] => ⟨b.dtype, b.ish, x⟩
      | _ => ⟨b.dtype, rows.length :: b.ish, .node rows⟩
    match exportComps len rest with
    | .ok l => .ok (out :: l)
    | .error e => .error e

/-- What `export` returns: the array itself for one component, else a list. -/
inductive Export (K : Type) where
  | single (a : NArr K)
  | list (l : List (NArr K))

/-- base.py:147-154 `export`. -/
def FArr.export {K : Type} (f : FArr K) : Py (Export K) :=
  match f.array with
  | none => if f.shapes.length = 0 then .ok (.list []) else .error .typeError
  | some arrs =>
    match exportComps f.len arrs with
    | .error e => .error e
    | .ok l => match f.shapes.length, l with
      | 1, [a] => .ok (.single a)
      | _, l => .ok (.list l)

/-- base.py:81-116 `append`: the new state (also after an exception) and the outcome. -/
def FArr.append {K : Type} (zero : K) (f : FArr K) (data : AppendArg K) : FArr K × Py Unit :=
  let data' : Py (List (Comp K)) := match data with
    | .other => .error .typeError
    | .ndarray a => .ok [.arr a]
    | .seq l => .ok l
    | .farr g => match g.export with
      | .error e => .error e
      | .ok (.single a) => .ok [.arr a]
      | .ok (.list l) => .ok (l.map .arr)
  match data' with
  | .error e => (f, .error e)
  | .ok l =>
    let arrs := f.array.getD (List.replicate f.shapes.length none)
    if f.shapes.length ≠ l.length then ({ f with array := some arrs }, .error .valueError)
    else
      match appendLoop zero f.len f.shapes arrs l with
      | (arrs', .error e) => ({ f with array := some arrs' }, .error e)
      | (arrs', .ok none) => ({ f with array := some arrs' }, .error .nameError)
      | (arrs', .ok (some n)) => (⟨f.shapes, some arrs', f.len + n⟩, .ok ())

/-- A sequence of appends, all of which succeed. -/
def FArr.appendAll {K : Type} (zero : K) (f : FArr K) : List (AppendArg K) → Py (FArr K)
  | [] => .ok f
  | d :: ds => match f.append zero d with
    | (_, .error e) => .error e
    | (f', .ok ()) => f'.appendAll zero ds

/-- base.py:37-41 `__str__` and `__repr__`: the object whose text is returned. Both show the
list of buffers, or `None` before the first append. -/
def FArr.shown {K : Type} (f : FArr K) : Option (List (Option (NArr K))) :=
  f.array.map fun as => as.map fun a => a.map fun b =>
    ⟨b.dtype, b.rows.length :: b.ish, .node b.rows⟩

/-- What `shape` returns: the number 0 for an empty array, else one tuple per component. -/
inductive ShapeVal where
  | int (n : ℕ)
  | tuples (l : List (List ℕ))

/-- base.py:55-63 `shape`: the number of items in front of each *declared* item shape. -/
def FArr.shape {K : Type} (f : FArr K) : ShapeVal :=
  if f.len = 0 then .int f.len else .tuples (f.shapes.map fun s => f.len :: s)

/-- base.py:49-53 `dtype`: the dtype of each buffer, `()` for an empty array. A missing list of
buffers has no `len`, a missing buffer has no attribute `dtype`. -/
def FArr.dtype {K : Type} (f : FArr K) : Py (List DType) :=
  if f.len = 0 then .ok []
  else match f.array with
    | none => .error .typeError
    | some arrs => arrs.mapM fun a => match a with
      | none => .error .attributeError
      | some b => .ok b.dtype

/-- base.py:65-67 `nb_manifolds`. -/
def FArr.nbManifolds {K : Type} (f : FArr K) : ℕ := f.shapes.length

/-- base.py:126-135 is the component a stack of square matrices that are all Hermitian, or
all skew-Hermitian, up to `_tol = 1e-5`? All rows of the buffer are looked at. -/
def vecTriu (b : Buf ℂ) : Prop :=
  ∃ p, b.ish = [p, p] ∧
    ((∀ v ∈ b.rows, ∀ i < p, ∀ j < p, ‖v.entry 0 i j - star (v.entry 0 j i)‖ < 1e-5) ∨
     (∀ v ∈ b.rows, ∀ i < p, ∀ j < p, ‖v.entry 0 i j + star (v.entry 0 j i)‖ < 1e-5))

open Classical in
/-- base.py:122-141 the rows `vectorize` makes from one component: every row of the
buffer is flattened, upper triangle only in the (skew-)Hermitian case. -/
noncomputable def vecComp (b : Buf ℂ) : List (List ℂ) :=
  if vecTriu b then
    b.rows.map fun v =>
      (List.range (b.ish.headD 0)).flatMap fun i =>
        ((List.range (b.ish.headD 0)).filter fun j => i ≤ j).map fun j => v.entry 0 i j
  else b.rows.map NDVal.ravel

/-- Row-wise concatenation `np.concatenate(temp, axis=1)`: `ValueError` unless all
components have the same number of rows. -/
def hconcat : List (List (List ℂ)) → Py (List (List ℂ))
  | [] => .error .valueError
  | [m] => .ok m
  | m :: ms => match hconcat ms with
    | .error e => .error e
    | .ok r => if m.length = r.length then .ok (List.zipWith (· ++ ·) m r) else .error .valueError

/-- base.py:118-145 `vectorize`; `reshape((bs, -1))` raises for `bs = 0`, iterating over
`None` raises `TypeError`, `len(None)` likewise. -/
noncomputable def FArr.vectorize (f : FArr ℂ) : Py (List (List ℂ)) :=
  if f.len = 0 then .error .valueError
  else match f.array with
    | none => .error .typeError
    | some arrs =>
      if arrs.any Option.isNone then .error .typeError
      else
        let bufs := arrs.filterMap id
        if bufs.any fun b => b.rows.length == 0 then .error .valueError
        else hconcat (bufs.map vecComp)

/-- A key given to `fa[key]`: a Python int, a slice, or a numpy integer. -/
inductive Key where
  | int (i : ℤ)
  | slice (start stop step : Option ℤ)
  | npint (i : ℤ)

/-- Python's index normalisation: negative indices count from the end. -/
def normIndex (n : ℕ) (i : ℤ) : Option ℕ :=
  if 0 ≤ i ∧ i < n then some i.toNat
  else if i < 0 ∧ 0 ≤ i + n then some (i + n).toNat
  else none

/-- Clipping of a slice bound as in Python's `slice.indices`. -/
def clipBound (n : ℕ) (lo hi : ℤ) (b : ℤ) : ℤ :=
  let b := if b < 0 then b + n else b
  max lo (min hi b)

/-- The indices selected by a slice: Python's `range(*slice(start, stop, step).indices(n))`. -/
def sliceIndices (n : ℕ) (start stop step : Option ℤ) : Py (List ℕ) :=
  let st := step.getD 1
  if st = 0 then .error .valueError
  else if 0 < st then
    let a := match start with | none => 0 | some s => clipBound n 0 n s
    let b := match stop with | none => n | some s => clipBound n 0 n s
    .ok ((List.range ((b - a + st - 1) / st).toNat).map fun (k : ℕ) => (a + k * st).toNat)
  else
    let a := match start with | none => n - 1 | some s => clipBound n (-1) (n - 1) s
    let b := match stop with | none => -1 | some s => clipBound n (-1) (n - 1) s
    .ok ((List.range ((a - b + -st - 1) / -st).toNat).map fun (k : ℕ) => (a + k * st).toNat)

/-- base.py:72-76 one component of `__getitem__`: cut to `len`, index, and for a Python int
put the batch axis back. -/
def getComp {K : Type} (len : ℕ) (key : Key) : Option (Buf K) → Py (Comp K)
  | none => .error .typeError
  | some b =>
    let rows := b.rows.take len
    match key with
    | .int i => match normIndex rows.length i with
      | none => .error .indexError
      | some k => match rows[k]? with
        | none => .error .indexError
        | some x => .ok (.arr ⟨b.dtype, 1 :: b.ish, .node [x]⟩)
    | .npint i => match normIndex rows.length i with
      | none => .error .indexError
      | some k => match rows[k]? with
        | none => .error .indexError
        | some x => match b.ish with
          | [] => .ok .other
          | _ => .ok (.arr ⟨b.dtype, b.ish, x⟩)
    | .slice a o s => match sliceIndices rows.length a o s with
      | .error e => .error e
      | .ok idx => .ok (.arr ⟨b.dtype, idx.length :: b.ish, .node (idx.filterMap (rows[·]?))⟩)

/-- `temp[i].shape[1:]`, base.py:77; a numpy scalar has shape `()`. -/
def Comp.tailShape {K : Type} : Comp K → List ℕ
  | .arr a => a.shape.tail
  | .other => []

/-- base.py:69-79 `__getitem__`. -/
def FArr.getitem {K : Type} (zero : K) (f : FArr K) (key : Key) : Py (FArr K) :=
  if f.len = 0 then .error .valueError
  else match f.array with
    | none => .error .typeError
    | some arrs =>
      match arrs.mapM (getComp f.len key) with
      | .error e => .error e
      | .ok temp =>
        match (FArr.new (temp.map Comp.tailShape)).append zero (.seq temp) with
        | (_, .error e) => .error e
        | (g, .ok ()) => .ok g

/-- base.py:157-172 `_feature_estimation`: the feature of one trial (a list of arrays, one
per manifold; a scalar or a bare array is put in a list first) as a `_FeatureArray`. -/
def featureEstimation {X K : Type} (zero : K) (est : X → Py (List (NArr K))) (x : X) :
    Py (FArr K) :=
  match est x with
  | .error e => .error e
  | .ok f =>
    match (FArr.new (f.map NArr.shape)).append zero (.seq (f.map .arr)) with
    | (_, .error e) => .error e
    | (g, .ok ()) => .ok g

/-- base.py:202-219 `FeaturesEstimation.transform`; `joblib.Parallel` returns the results
in the order of the trials. Simplification: the estimator's `fit_transform` is a function
of the trial. -/
def featuresTransform {X K : Type} (zero : K) (est : X → Py (List (NArr K))) (xs : List X) :
    Py (FArr K) :=
  match xs.mapM (featureEstimation zero est) with
  | .error e => .error e
  | .ok [] => .error .indexError
  | .ok (f :: fs) => f.appendAll zero (fs.map .farr)

end RS
