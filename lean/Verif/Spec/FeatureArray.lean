import Verif.Model.FeatureArray

/-
Specification vocabulary for `_FeatureArray`: what it means to be a batch of items, and
the array that packs a list of items.
-/
set_option autoImplicit false

namespace RS
variable {K : Type}

/-- A signature: dtype and item shape of every component. -/
abbrev Sig := List (DType × List ℕ)

/-- `d` is an array of dtype `dt` holding the items `items`, each of shape `sh`: either one
bare item or a stack of items along a first axis. -/
inductive IsBatch (dt : DType) (sh : List ℕ) : Comp K → List (NDVal K) → Prop
  | one (v : NDVal K) : IsBatch dt sh (.arr ⟨dt, sh, v⟩) [v]
  | many (rows : List (NDVal K)) :
      IsBatch dt sh (.arr ⟨dt, rows.length :: sh, .node rows⟩) rows

/-- A list of components, each a batch of the same number `n` of items. -/
inductive IsBatches (n : ℕ) : Sig → List (Comp K) → List (List (NDVal K)) → Prop
  | nil : IsBatches n [] [] []
  | cons {dt sh d items sig ds its} (h : IsBatch dt sh d items) (hn : items.length = n)
      (t : IsBatches n sig ds its) : IsBatches n ((dt, sh) :: sig) (d :: ds) (items :: its)

/-- The array that holds the items `rows`: without batch axis if there is exactly one. -/
def packed (dt : DType) (sh : List ℕ) (rows : List (NDVal K)) : NArr K :=
  match rows with
  | [x] => ⟨dt, sh, x⟩
  | rows => ⟨dt, rows.length :: sh, .node rows⟩

/-- What `export()` should return for the items `its` (one list per component). -/
def packedAll (sig : Sig) (its : List (List (NDVal K))) : Export K :=
  match List.zipWith (fun s rows => packed s.1 s.2 rows) sig its with
  | [a] => .single a
  | l => .list l

/-- An argument of `append` that supplies `n` items per component: a list or tuple of
batches, a bare ndarray when there is one component, or another feature array that exports
such items. -/
inductive Supplies (sig : Sig) (n : ℕ) : AppendArg K → List (List (NDVal K)) → Prop
  | seq {ds its} (h : IsBatches n sig ds its) : Supplies sig n (.seq ds) its
  | nd {a its} (h : IsBatches n sig [.arr a] its) : Supplies sig n (.ndarray a) its
  | fa {g : FArr K} {its} (h : g.export = .ok (packedAll sig its))
      (hlen : its.length = sig.length) (hn : ∀ l ∈ its, l.length = n) :
      Supplies sig n (.farr g) its

/-- A history: each append with the number of items and the items it supplies. -/
abbrev Hist (K : Type) := List (AppendArg K × ℕ × List (List (NDVal K)))

/-- Total number of items of a history. -/
def Hist.total (h : Hist K) : ℕ := (h.map fun e => e.2.1).sum

/-- Per component: the concatenation of all items, in order. -/
def Hist.items (m : ℕ) (h : Hist K) : List (List (NDVal K)) :=
  (List.range m).map fun i => h.flatMap fun e => e.2.2.getD i []

/-- Run a sequence of appends, also through failures, and record the outcomes. -/
def FArr.runAppends (zero : K) (f : FArr K) : List (AppendArg K) → FArr K × List (Py Unit)
  | [] => (f, [])
  | d :: ds =>
    let r := f.append zero d
    let s := r.1.runAppends zero ds
    (s.1, r.2 :: s.2)

/-- The components an argument of `append` unpacks to. -/
def AppendArg.comps (data : AppendArg K) : Py (List (Comp K)) :=
  match data with
    | .other => .error .typeError
    | .ndarray a => .ok [.arr a]
    | .seq l => .ok l
    | .farr g => match g.export with
      | .error e => .error e
      | .ok (.single a) => .ok [.arr a]
      | .ok (.list l) => .ok (l.map .arr)

/-- The number of items in a batch for item shape `sh`. -/
def Comp.count (sh : List ℕ) : Comp K → ℕ
  | .other => 0
  | .arr a => if a.shape.length = sh.length then 1 else a.val.unstack.length

/-- All components of the argument supply the same number of items. -/
def AppendArg.Aligned (shapes : List (List ℕ)) (arg : AppendArg K) : Prop :=
  ∀ ds, arg.comps = .ok ds → ∃ n, ∀ p ∈ shapes.zip ds, p.2.count p.1 = n

/-- Position a slice bound refers to, negative values counting from the end. -/
def wrapPos (n : ℕ) (b : ℤ) : ℤ := if b < 0 then b + n else b

/-- Spec: the stack is Hermitian, or skew-Hermitian, up to 1e-5. -/
def HermitianStack (p : ℕ) (items : List (NDVal ℂ)) : Prop :=
  (∀ v ∈ items, ∀ i < p, ∀ j < p, ‖v.entry 0 i j - star (v.entry 0 j i)‖ < 1e-5) ∨
  (∀ v ∈ items, ∀ i < p, ∀ j < p, ‖v.entry 0 i j + star (v.entry 0 j i)‖ < 1e-5)

/-- Spec: how `vectorize` should flatten one item of a component whose items are `items`. -/
noncomputable def flatItem (sh : List ℕ) (items : List (NDVal ℂ)) (v : NDVal ℂ) : List ℂ :=
  open Classical in
  if ∃ p, sh = [p, p] ∧ HermitianStack p items then
    (List.range (sh.headD 0)).flatMap fun i =>
      ((List.range (sh.headD 0)).filter fun j => i ≤ j).map fun j => v.entry 0 i j
  else v.ravel

end RS
