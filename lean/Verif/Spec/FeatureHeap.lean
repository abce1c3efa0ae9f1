import Verif.Model.FeatureHeap
import Verif.Spec.FeatureArray

/-
Value semantics for programs that use arrays and feature arrays: no two arrays share anything, a
statement changes the object it names and nothing else.
-/
set_option autoImplicit false

namespace RS
variable {K : Type}

/-- `v` is a nested list of the given shape. -/
def HasShape {A : Type} : List ℕ → NDVal A → Prop
  | [], .leaf _ => True
  | n :: s, .node l => l.length = n ∧ ∀ v ∈ l, HasShape s v
  | _, _ => False

/-- The state of a program with values. -/
structure VSys (K : Type) where
  arrs : List (NArr K)
  fas : List (FArr K)

/-- One statement, with values. -/
def VSys.step (zero : K) (s : VSys K) : FOp K → VSys K × Py Unit
  | .array a => (⟨s.arrs ++ [a], s.fas⟩, .ok ())
  | .view i a o st =>
    match s.arrs[i]? with
    | none => (s, .ok ())
    | some x => match x.slice a o st with
      | .error e => (s, .error e)
      | .ok y => (⟨s.arrs ++ [y], s.fas⟩, .ok ())
  | .new shapes => (⟨s.arrs, s.fas ++ [FArr.new shapes]⟩, .ok ())
  | .append k arg =>
    match s.fas[k]?, arg.resolve s.arrs s.fas with
    | some f, some data =>
      let r := f.append zero data
      (⟨s.arrs, s.fas.set k r.1⟩, r.2)
    | _, _ => (s, .ok ())
  | .getitem k key =>
    match s.fas[k]? with
    | none => (s, .ok ())
    | some f => match f.getitem zero key with
      | .error e => (s, .error e)
      | .ok g => (⟨s.arrs, s.fas ++ [g]⟩, .ok ())
  | .export k =>
    match s.fas[k]? with
    | none => (s, .ok ())
    | some f => match f.export with
      | .error e => (s, .error e)
      | .ok x => (⟨s.arrs ++ x.arrays, s.fas⟩, .ok ())
  | .write i v =>
    match s.arrs[i]? with
    | none => (s, .ok ())
    | some x => (⟨s.arrs.set i ⟨x.dtype, x.shape, v⟩, s.fas⟩, .ok ())

/-- A program with values. -/
def VSys.run (zero : K) (s : VSys K) : List (FOp K) → VSys K × List (Py Unit)
  | [] => (s, [])
  | op :: ops =>
    let r := s.step zero op
    let t := r.1.run zero ops
    (t.1, r.2 :: t.2)

/-! ## What the cells show -/

def NArr.map {A B : Type} (f : A → B) (a : NArr A) : NArr B := ⟨a.dtype, a.shape, a.val.map f⟩

def Comp.map {A B : Type} (f : A → B) : Comp A → Comp B
  | .other => .other
  | .arr a => .arr (a.map f)

def Buf.map {A B : Type} (f : A → B) (b : Buf A) : Buf B :=
  ⟨b.dtype, b.ish, b.rows.map (NDVal.map f)⟩

def FArr.map {A B : Type} (f : A → B) (x : FArr A) : FArr B :=
  ⟨x.shapes, x.array.map (List.map (Option.map (Buf.map f))), x.len⟩

/-- The arrays and feature arrays that the program sees: each with the present content of its
cells. -/
def FSys.seen (s : FSys K) : VSys K :=
  ⟨s.arrs.map (NArr.map s.heap.get), s.fas.map (FArr.map s.heap.get)⟩

/-! ## Programs for which references do not matter -/

/-- No component of the feature array has been filled. -/
def FArr.Fresh {A : Type} (f : FArr A) : Prop :=
  ∀ as, f.array = some as → ∀ a ∈ as, a = none

/-- The cells that array `i` shows are shown by no feature array and by no other array. -/
def FSys.Unshared (s : FSys K) (i : ℕ) : Prop :=
  ∀ x, s.arrs[i]? = some x → x.val.ravel.Nodup ∧
    (∀ j y, s.arrs[j]? = some y → j ≠ i → ∀ c ∈ y.val.ravel, c ∉ x.val.ravel) ∧
    ∀ f ∈ s.fas, ∀ as, f.array = some as → ∀ b, some b ∈ as → ∀ r ∈ b.rows, ∀ c ∈ r.ravel,
      c ∉ x.val.ravel

/-- The statements allowed in state `s`.
* New arrays have the shape they declare.
* The components of a batch have equal lengths, and the first append to a feature array with
  several components is accepted.
* Keys are Python integers or slices.
* Only an array that shares nothing is written to. -/
def FSys.Allowed (zero : K) (s : FSys K) : FOp K → Prop
  | .array a => HasShape a.shape a.val
  | .view _ _ _ _ => True
  | .new _ => True
  | .append k arg => ∀ f data, s.fas[k]? = some f → arg.resolve s.arrs s.fas = some data →
      data.Aligned f.shapes ∧
      (f.Fresh → f.shapes.length ≤ 1 ∨ (hAppend zero s.heap f data).2.2 = .ok ())
  | .getitem _ key => ∀ i, key ≠ .npint i
  | .export _ => True
  | .write i v => (∀ x, s.arrs[i]? = some x → HasShape x.shape v) ∧ s.Unshared i

/-- Every statement of the program is allowed when it is reached. -/
def FSys.AllAllowed (zero : K) (s : FSys K) : List (FOp K) → Prop
  | [] => True
  | op :: ops => s.Allowed zero op ∧ (s.step zero op).1.AllAllowed zero ops

/-- The numbers of the arrays an argument of `append` mentions. -/
def ArgRef.mentions : ArgRef → List ℕ
  | .ndarray i => [i]
  | .seq l => l.filterMap id
  | .farr _ => []
  | .other => []

/-- The statements after which array `i` may share its cells: a view of it is made, or it is
stored as the first batch of a feature array. -/
def FOp.Shares (s : FSys K) (i : ℕ) : FOp K → Prop
  | .view j _ _ _ => j = i
  | .append k arg => i ∈ arg.mentions ∧ ∃ f, s.fas[k]? = some f ∧ f.Fresh
  | _ => False

end RS
