import Verif.Model.Verbose
import Mathlib.Order.Bounds.Basic
import Mathlib.Data.List.OfFn
import Mathlib.Data.Fin.VecNotation
import Mathlib.Tactic.NormNum
import Mathlib.Tactic.Tauto
import Mathlib.Tactic.IntervalCases
import Mathlib.Tactic.FinCases

/-
Properties of utils/verbose.py (C130, C131).
-/
set_option autoImplicit false

namespace RS

/-- Spec: the format begins with the grouping, the precision or the type: no fill,
alignment, sign, `#`, `0` or width. -/
def PlainFmt (fmt : List Char) : Prop :=
  (∀ c ∈ fmt.head?, c.isDigit = false ∧ c ∉ ['<', '>', '=', '^', '+', '-', ' ', '#']) ∧
  (∀ c ∈ fmt.tail.head?, c ∉ ['<', '>', '=', '^'])

/-- Spec: the lines of an aligned table: in each column the texts are padded with spaces on
the left to the length of the longest, and followed by two spaces. -/
def IsTable {n m : ℕ} (T : Fin n → Fin m → List Char) (lines : List (List Char)) : Prop :=
  ∃ w : Fin m → ℕ, (∀ j, IsGreatest (Set.range fun i => (T i j).length) (w j)) ∧
    lines = List.ofFn fun i => (List.ofFn fun j =>
      List.replicate (w j - (T i j).length) ' ' ++ T i j ++ [' ', ' ']).flatten

theorem isAlign_iff (c : Char) : isAlign c = true ↔ c ∈ ['<', '>', '=', '^'] := by
  simp [isAlign, or_assoc]

theorem isSign_iff (c : Char) : isSign c = true ↔ c ∈ ['+', '-', ' '] := by
  simp [isSign, or_assoc]

theorem toDigits_shape (w : ℕ) (hw : 0 < w) :
    ∃ c r, Nat.toDigits 10 w = c :: r ∧ c ≠ '0' := by
  induction w using Nat.strongRecOn with
  | ind w ih =>
    rcases Nat.lt_or_ge w 10 with h | h
    · refine ⟨w.digitChar, [], Nat.toDigits_of_lt_base h, ?_⟩
      clear ih
      interval_cases w <;> decide
    · obtain ⟨c, r, e, hc⟩ := ih (w / 10) (by omega) (by omega)
      refine ⟨c, r ++ [(w % 10).digitChar], ?_, hc⟩
      rw [Nat.toDigits_of_base_le (by norm_num) h, e]
      rfl

theorem readNat_append (w : ℕ) (fmt : List Char) (h : ∀ c ∈ fmt.head?, c.isDigit = false) :
    readNat (Nat.toDigits 10 w ++ fmt) = (some w, fmt) := by
  have hd : ∀ c ∈ Nat.toDigits 10 w, c.isDigit = true := fun c hc =>
    Nat.isDigit_of_mem_toDigits (by norm_num) (by norm_num) hc
  have ht : fmt.takeWhile Char.isDigit = [] := by
    cases fmt with
    | nil => rfl
    | cons c r => simp [h c rfl]
  have hdr : fmt.dropWhile Char.isDigit = fmt := by
    cases fmt with
    | nil => rfl
    | cons c r => simp [h c rfl]
  have h1 : (Nat.toDigits 10 w ++ fmt).takeWhile Char.isDigit = Nat.toDigits 10 w := by
    rw [List.takeWhile_append_of_pos hd, ht, List.append_nil]
  have h2 : (Nat.toDigits 10 w ++ fmt).dropWhile Char.isDigit = fmt := by
    rw [List.dropWhile_append_of_pos hd, hdr]
  unfold readNat
  rw [h1, h2]
  cases e : Nat.toDigits 10 w with
  | nil => exact absurd e Nat.toDigits_ne_nil
  | cons c r => simp only [← e, Nat.ofDigitChars_ten_toDigits]

theorem readNat_plain (fmt : List Char) (h : ∀ c ∈ fmt.head?, c.isDigit = false) :
    readNat fmt = (none, fmt) := by
  cases fmt with
  | nil => rfl
  | cons c r => simp [readNat, h c rfl]

theorem readChar_ne (c : Char) (l : List Char) (h : ∀ d ∈ l.head?, d ≠ c) :
    readChar c l = (false, l) := by
  cases l with
  | nil => rfl
  | cons d r => simp [readChar, h d rfl]

/-- Without sign and flags the middle fields are the width. -/
theorem parseMid_plain (l : List Char)
    (h : ∀ c ∈ l.head?, c ∉ ['+', '-', ' ', '#', '0']) :
    parseMid none none l =
      match parseTail (readNat l).2 with
      | .error e => .error e
      | .ok (g, p, t) => .ok ⟨none, none, none, false, false, (readNat l).1, g, p, t⟩ := by
  have hs : readSign l = (none, l) := by
    cases l with
    | nil => rfl
    | cons c r =>
      have : ¬ isSign c = true := fun hc => h c rfl (by
        have := (isSign_iff c).mp hc
        simp only [List.mem_cons, List.not_mem_nil, or_false] at this ⊢
        tauto)
      simp [readSign, this]
  unfold parseMid
  simp only [hs]
  rw [readChar_ne '#' l fun d hd e => h d hd (by simp [e])]
  simp only [if_true]
  rw [readChar_ne '0' l fun d hd e => h d hd (by simp [e])]
  rfl

theorem parseSpec_noalign (l : List Char) (h1 : ∀ c ∈ l.head?, isAlign c = false)
    (h2 : ∀ c ∈ l.tail.head?, isAlign c = false) : parseSpec l = parseMid none none l := by
  match l with
  | [] => rfl
  | [c] => simp [parseSpec, h1 c rfl]
  | c :: d :: r => simp [parseSpec, h1 c rfl, h2 d rfl]

theorem isDigit_facts (c : Char) (h : c.isDigit = true) :
    isAlign c = false ∧ c ∉ ['+', '-', ' ', '#'] := by
  constructor
  · by_contra hc
    rw [Bool.not_eq_false, isAlign_iff] at hc
    simp only [List.mem_cons, List.not_mem_nil, or_false] at hc
    rcases hc with rfl | rfl | rfl | rfl <;> exact absurd h (by decide)
  · intro hc
    simp only [List.mem_cons, List.not_mem_nil, or_false] at hc
    rcases hc with rfl | rfl | rfl | rfl <;> exact absurd h (by decide)

theorem parseSpec_width (fmt : List Char) (hf : PlainFmt fmt) (w : ℕ) (hw : 0 < w) :
    parseSpec (Nat.toDigits 10 w ++ fmt) =
      match parseSpec fmt with
      | .error e => .error e
      | .ok f => .ok { f with width := some w } := by
  have hfd : ∀ c ∈ fmt.head?, c.isDigit = false := fun c hc => (hf.1 c hc).1
  have hfa : ∀ c ∈ fmt.head?, isAlign c = false := fun c hc => by
    by_contra h
    rw [Bool.not_eq_false, isAlign_iff] at h
    refine (hf.1 c hc).2 ?_
    simp only [List.mem_cons, List.not_mem_nil, or_false] at h ⊢
    tauto
  have e1 : parseSpec fmt =
      match parseTail fmt with
      | .error e => .error e
      | .ok (g, p, t) => .ok ⟨none, none, none, false, false, none, g, p, t⟩ := by
    rw [parseSpec_noalign fmt hfa fun c hc => by
        by_contra h
        rw [Bool.not_eq_false, isAlign_iff] at h
        exact hf.2 c hc h,
      parseMid_plain fmt fun c hc h => by
        have h1 := hf.1 c hc
        simp only [List.mem_cons, List.not_mem_nil, or_false] at h h1
        rcases h with rfl | rfl | rfl | rfl | rfl
        · simp at h1
        · simp at h1
        · simp at h1
        · simp at h1
        · exact absurd h1.1 (by decide),
      readNat_plain fmt hfd]
  obtain ⟨c, r, e, hc0⟩ := toDigits_shape w hw
  have hd : ∀ x ∈ Nat.toDigits 10 w, x.isDigit = true := fun c hc =>
    Nat.isDigit_of_mem_toDigits (by norm_num) (by norm_num) hc
  have hcd : c.isDigit = true := hd c (by rw [e]; simp)
  have e2 : parseSpec (Nat.toDigits 10 w ++ fmt) =
      match parseTail fmt with
      | .error e => .error e
      | .ok (g, p, t) => .ok ⟨none, none, none, false, false, some w, g, p, t⟩ := by
    rw [parseSpec_noalign, parseMid_plain, readNat_append w fmt hfd]
    · intro d hd' h
      rw [e] at hd'
      simp only [List.cons_append, List.head?_cons, Option.mem_def, Option.some.injEq] at hd'
      subst hd'
      have h1 := (isDigit_facts c hcd).2
      simp only [List.mem_cons, List.not_mem_nil, or_false] at h h1
      tauto
    · intro d hd'
      rw [e] at hd'
      simp only [List.cons_append, List.head?_cons, Option.mem_def, Option.some.injEq] at hd'
      subst hd'
      exact (isDigit_facts c hcd).1
    · intro d hd'
      rw [e] at hd'
      simp only [List.cons_append, List.tail_cons] at hd'
      cases r with
      | nil => exact hfa d hd'
      | cons x r =>
        simp only [List.cons_append, List.head?_cons, Option.mem_def, Option.some.injEq] at hd'
        subst hd'
        exact (isDigit_facts x (hd x (by rw [e]; simp))).1
  rw [e1, e2]
  cases parseTail fmt <;> rfl

theorem padTo_plain (f : FmtSpec) (hf : f.fill = none) (ha : f.align = none)
    (hz : f.zero = false) (w : ℕ) (s : List Char) :
    padTo { f with width := some w } s = List.replicate (w - s.length) ' ' ++ s ∧
    (f.width = none → padTo f s = s) := by
  constructor
  · simp [padTo, hf, ha, hz]
  · intro hw
    simp [padTo, hf, ha, hz, hw]

theorem parseSpec_plain (fmt : List Char) (hf : PlainFmt fmt) (f : FmtSpec)
    (h : parseSpec fmt = .ok f) :
    f.fill = none ∧ f.align = none ∧ f.zero = false ∧ f.width = none := by
  have hfd : ∀ c ∈ fmt.head?, c.isDigit = false := fun c hc => (hf.1 c hc).1
  rw [parseSpec_noalign fmt (fun c hc => by
        by_contra h
        rw [Bool.not_eq_false, isAlign_iff] at h
        refine (hf.1 c hc).2 ?_
        simp only [List.mem_cons, List.not_mem_nil, or_false] at h ⊢
        tauto) fun c hc => by
        by_contra h
        rw [Bool.not_eq_false, isAlign_iff] at h
        exact hf.2 c hc h,
      parseMid_plain fmt fun c hc h => by
        have h1 := hf.1 c hc
        simp only [List.mem_cons, List.not_mem_nil, or_false] at h h1
        rcases h with rfl | rfl | rfl | rfl | rfl
        · simp at h1
        · simp at h1
        · simp at h1
        · simp at h1
        · exact absurd h1.1 (by decide),
      readNat_plain fmt hfd] at h
  revert h
  cases parseTail fmt with
  | error e => intro h; cases h
  | ok v =>
    intro h
    cases h
    exact ⟨rfl, rfl, rfl, rfl⟩

/-- A plain format with a width put in front pads with spaces on the left. -/
theorem pyFormat_width {α : Type} (digits : FmtSpec → α → Option (List Char)) (fmt : List Char)
    (hf : PlainFmt fmt) (w : ℕ) (hw : 0 < w) (x : α) (s : List Char)
    (h : pyFormat digits fmt x = .ok s) :
    pyFormat digits (Nat.toDigits 10 w ++ fmt) x =
      .ok (List.replicate (w - s.length) ' ' ++ s) := by
  unfold pyFormat at h ⊢
  rw [parseSpec_width fmt hf w hw]
  cases hp : parseSpec fmt with
  | error e => rw [hp] at h; cases h
  | ok f =>
    obtain ⟨h1, h2, h3, h4⟩ := parseSpec_plain fmt hf f hp
    rw [hp] at h
    simp only at h ⊢
    cases hd : digits { f with fill := none, align := none, width := none } x with
    | none => rw [hd] at h; cases h
    | some t =>
      rw [hd] at h
      simp only [Except.ok.injEq] at h ⊢
      have := padTo_plain f h1 h2 h3 w t
      rw [this.2 h4] at h
      subst h
      exact this.1

theorem py_mapM_ok {α β : Type} (f : α → Py β) (g : α → β) (l : List α)
    (h : ∀ a ∈ l, f a = .ok (g a)) : l.mapM f = .ok (l.map g) := by
  induction l with
  | nil => rfl
  | cons a l ih =>
    rw [List.mapM_cons, h a (by simp), ih fun b hb => h b (by simp [hb])]
    rfl

theorem foldl_max_greatest (l : List ℕ) (a : ℕ) :
    (∀ x ∈ l, x ≤ l.foldl max a) ∧ a ≤ l.foldl max a ∧
      (l.foldl max a = a ∨ l.foldl max a ∈ l) := by
  induction l generalizing a with
  | nil => simp
  | cons b l ih =>
    obtain ⟨h1, h2, h3⟩ := ih (max a b)
    simp only [List.foldl_cons, List.mem_cons]
    refine ⟨?_, le_trans (le_max_left _ _) h2, ?_⟩
    · rintro x (rfl | hx)
      · exact le_trans (le_max_right _ _) h2
      · exact h1 x hx
    · rcases h3 with h3 | h3
      · rcases max_choice a b with h | h
        · left; rw [h3, h]
        · right; left; rw [h3, h]
      · right; right; exact h3

theorem colMax_greatest {α : Type} {n : ℕ} (hn : 0 < n)
    (digits : FmtSpec → α → Option (List Char)) (fmt : List Char) (col : Fin n → α)
    (T : Fin n → List Char) (h : ∀ i, pyFormat digits fmt (col i) = .ok (T i)) :
    ∃ w, colMax digits fmt ((List.finRange n).map col) = .ok w ∧
      IsGreatest (Set.range fun i => (T i).length) w := by
  have e : ((List.finRange n).map col).mapM (pyFormat digits fmt) =
      .ok ((List.finRange n).map T) := by
    rw [List.mapM_map]
    exact py_mapM_ok _ _ _ fun i _ => h i
  have hne : (List.finRange n).map T ≠ [] := by
    intro h0
    have := congrArg List.length h0
    simp at this
    omega
  have hl : colMax digits fmt ((List.finRange n).map col) =
      .ok ((((List.finRange n).map T).map List.length).foldl max 0) := by
    unfold colMax
    rw [e]
    cases hT : (List.finRange n).map T with
    | nil => exact absurd hT hne
    | cons s ss => rfl
  refine ⟨_, hl, ?_⟩
  obtain ⟨h1, -, h3⟩ := foldl_max_greatest (((List.finRange n).map T).map List.length) 0
  constructor
  · rcases h3 with h3 | h3
    · refine ⟨⟨0, hn⟩, ?_⟩
      have h4 := h1 (T ⟨0, hn⟩).length (by simp)
      rw [h3] at h4 ⊢
      exact Nat.le_zero.mp h4
    · simp only [List.map_map, List.mem_map, List.mem_finRange, true_and] at h3
      obtain ⟨i, hi⟩ := h3
      exact ⟨i, by simpa using hi⟩
  · rintro x ⟨i, rfl⟩
    exact h1 _ (by simp)

theorem printRow_plain {α : Type} (digits : FmtSpec → α → Option (List Char)) (fmt : List Char)
    (hf : PlainFmt fmt) {ι : Type} (w : ι → ℕ) (y : ι → α) (t : ι → List Char) (l : List ι)
    (hw : ∀ j ∈ l, 0 < w j) (h : ∀ j ∈ l, pyFormat digits fmt (y j) = .ok (t j)) :
    printRow digits fmt ((l.map w).zip (l.map y)) =
      .ok (l.map fun j => List.replicate (w j - (t j).length) ' ' ++ t j ++ [' ', ' ']).flatten := by
  induction l with
  | nil => rfl
  | cons a l ih =>
    simp only [List.map_cons, List.zip_cons_cons, printRow, List.flatten_cons]
    rw [pyFormat_width digits fmt hf (w a) (hw a (by simp)) (y a) (t a) (h a (by simp)),
      ih (fun j hj => hw j (by simp [hj])) fun j hj => h j (by simp [hj])]

/-! ## C130: matprint -/

/-- The property: for every format accepted for the entries, the entries are shown under that
format. It fails: with the format `>3d` the entry 1 is shown as `441`, and the matrices
`[[1], [1000]]` and `[[441], [1000]]` print the same. -/
theorem C130_violated :
    pyFormat intDigits ">3d".toList 1 = .ok "  1".toList ∧
    matprint intDigits ![![1], ![1000]] ">3d".toList = .ok ["441  ".toList, "1000  ".toList] ∧
    matprint intDigits ![![441], ![1000]] ">3d".toList =
      .ok ["441  ".toList, "1000  ".toList] := by
  decide +kernel

/-- A format with a sign, accepted for every entry, makes matprint raise. -/
theorem C130_sign_violated :
    (∀ x, ∃ s, pyFormat intDigits "+d".toList x = .ok s) ∧
    matprint intDigits ![![1, 2], ![3, 4]] "+d".toList = .error .valueError := by
  constructor
  · intro x
    exact ⟨_, rfl⟩
  · decide +kernel

/-- Partial: with a format that has no fill, alignment, sign, flag or width, the output is
an aligned table of the formatted entries. -/
theorem C130_plain_partial {α : Type} {n m : ℕ} (hn : 0 < n)
    (digits : FmtSpec → α → Option (List Char)) (mat : Fin n → Fin m → α) (fmt : List Char)
    (hf : PlainFmt fmt) (T : Fin n → Fin m → List Char)
    (h : ∀ i j, pyFormat digits fmt (mat i j) = .ok (T i j)) (hT : ∀ i j, T i j ≠ []) :
    ∃ lines, matprint digits mat fmt = .ok lines ∧ IsTable T lines := by
  choose w hw hg using fun j => colMax_greatest hn digits fmt (fun i => mat i j) (fun i => T i j)
    fun i => h i j
  have hpos : ∀ j, 0 < w j := fun j => by
    have h1 := (hg j).2 ⟨⟨0, hn⟩, rfl⟩
    have h2 := List.length_pos_iff.mpr (hT ⟨0, hn⟩ j)
    exact lt_of_lt_of_le h2 h1
  refine ⟨_, ?_, w, hg, rfl⟩
  unfold matprint
  rw [py_mapM_ok _ w _ fun j _ => hw j]
  simp only
  rw [py_mapM_ok _ (fun i => ((List.finRange m).map fun j =>
      List.replicate (w j - (T i j).length) ' ' ++ T i j ++ [' ', ' ']).flatten)]
  · simp only [List.ofFn_eq_map]
  · intro i _
    exact printRow_plain digits fmt hf w (mat i) (T i) _ (fun j _ => hpos j) fun j _ => h i j

/-- All lines of a table have the same length. -/
theorem C130_aligned {n m : ℕ} (T : Fin n → Fin m → List Char) (lines : List (List Char))
    (h : IsTable T lines) :
    lines.length = n ∧ ∀ a ∈ lines, ∀ b ∈ lines, a.length = b.length := by
  obtain ⟨w, hw, rfl⟩ := h
  refine ⟨by simp, ?_⟩
  have key : ∀ i, ((List.ofFn fun j =>
      List.replicate (w j - (T i j).length) ' ' ++ T i j ++ [' ', ' ']).flatten).length =
      (List.ofFn fun j => w j + 2).sum := by
    intro i
    rw [List.length_flatten, List.map_ofFn]
    congr 2
    funext j
    have h1 : (T i j).length ≤ w j := (hw j).2 ⟨i, rfl⟩
    simp only [Function.comp_apply, List.length_append, List.length_replicate, List.length_cons,
      List.length_nil]
    omega
  intro a ha b hb
  simp only [List.mem_ofFn] at ha hb
  obtain ⟨i, rfl⟩ := ha
  obtain ⟨k, rfl⟩ := hb
  rw [key, key]

/-- The format of the first entry that has none decides: matprint raises. -/
theorem C130_bad_format {α : Type} {n m : ℕ} (digits : FmtSpec → α → Option (List Char))
    (mat : Fin n → Fin m → α) (fmt : List Char) (hn : 0 < n) (hm : 0 < m)
    (h : parseSpec fmt = .error .valueError) :
    matprint digits mat fmt = .error .valueError := by
  obtain ⟨n, rfl⟩ : ∃ k, n = k + 1 := ⟨n - 1, by omega⟩
  obtain ⟨m, rfl⟩ : ∃ k, m = k + 1 := ⟨m - 1, by omega⟩
  have h1 : ∀ x, pyFormat digits fmt x = .error .valueError := fun x => by
    unfold pyFormat; rw [h]
  have h2 : ∀ (c : α) (cs : List α), colMax digits fmt (c :: cs) = .error .valueError := by
    intro c cs
    unfold colMax
    rw [List.mapM_cons, h1]
    rfl
  have h3 : ∀ j, colMax digits fmt ((List.finRange (n + 1)).map fun i => mat i j) =
      .error .valueError := fun j => by
    rw [List.finRange_succ, List.map_cons, h2]
  unfold matprint
  rw [List.finRange_succ (n := m), List.mapM_cons, h3]
  rfl

/-- Spec: the text `s` in a field of width `k`, filled with `c`, on the side given by `a`. -/
def alignedField (a : Char) (k : ℕ) (c : Char) (s : List Char) : List Char :=
  if a = '<' then s ++ List.replicate (k - s.length) c
  else if a = '>' then List.replicate (k - s.length) c ++ s
  else List.replicate ((k - s.length) / 2) c ++ s ++
    List.replicate (k - s.length - (k - s.length) / 2) c

theorem alignedField_length (a : Char) (k : ℕ) (c : Char) (s : List Char) :
    (alignedField a k c s).length = max k s.length := by
  unfold alignedField
  split
  · simp only [List.length_append, List.length_replicate]; omega
  · split
    · simp only [List.length_append, List.length_replicate]; omega
    · simp only [List.length_append, List.length_replicate]; omega

theorem parseMid_fields (fill align : Option Char) (l : List Char)
    (h : ∀ c ∈ l.head?, c ∉ ['+', '-', ' ', '#', '0']) :
    parseMid fill align l =
      match parseTail (readNat l).2 with
      | .error e => .error e
      | .ok (g, p, t) => .ok ⟨fill, align, none, false, false, (readNat l).1, g, p, t⟩ := by
  have hs : readSign l = (none, l) := by
    cases l with
    | nil => rfl
    | cons c r =>
      have : ¬ isSign c = true := fun hc => h c rfl (by
        have := (isSign_iff c).mp hc
        simp only [List.mem_cons, List.not_mem_nil, or_false] at this ⊢
        tauto)
      simp [readSign, this]
  unfold parseMid
  simp only [hs]
  rw [readChar_ne '#' l fun d hd e => h d hd (by simp [e])]
  have hz : (if fill = none then readChar '0' l else (false, l)) = (false, l) := by
    rw [readChar_ne '0' l fun d hd e => h d hd (by simp [e]), ite_self]
  simp only [hz]
  rfl

theorem parseSpec_plain_eq (fmt : List Char) (hf : PlainFmt fmt) :
    parseSpec fmt =
      match parseTail fmt with
      | .error e => .error e
      | .ok (g, p, t) => .ok ⟨none, none, none, false, false, none, g, p, t⟩ := by
  have hfd : ∀ c ∈ fmt.head?, c.isDigit = false := fun c hc => (hf.1 c hc).1
  rw [parseSpec_noalign fmt (fun c hc => by
        by_contra h
        rw [Bool.not_eq_false, isAlign_iff] at h
        refine (hf.1 c hc).2 ?_
        simp only [List.mem_cons, List.not_mem_nil, or_false] at h ⊢
        tauto) fun c hc => by
        by_contra h
        rw [Bool.not_eq_false, isAlign_iff] at h
        exact hf.2 c hc h,
      parseMid_plain fmt fun c hc h => by
        have h1 := hf.1 c hc
        simp only [List.mem_cons, List.not_mem_nil, or_false] at h h1
        rcases h with rfl | rfl | rfl | rfl | rfl
        · simp at h1
        · simp at h1
        · simp at h1
        · simp at h1
        · exact absurd h1.1 (by decide),
      readNat_plain fmt hfd]

/-- The digits of a positive number: a first digit that is not `0`, and no alignment character. -/
theorem toDigits_head (k : ℕ) (hk : 0 < k) : ∃ c r, Nat.toDigits 10 k = c :: r ∧ c ≠ '0' ∧
    c.isDigit = true ∧ ∀ x ∈ r, x.isDigit = true := by
  obtain ⟨c, r, e, hc⟩ := toDigits_shape k hk
  have hd : ∀ x ∈ Nat.toDigits 10 k, x.isDigit = true := fun c hc =>
    Nat.isDigit_of_mem_toDigits (by norm_num) (by norm_num) hc
  rw [e] at hd
  exact ⟨c, r, e, hc, hd c (by simp), fun x hx => hd x (by simp [hx])⟩

theorem parseMid_width (fill align : Option Char) (k : ℕ) (hk : 0 < k) (rest : List Char)
    (hr : ∀ c ∈ rest.head?, c.isDigit = false) :
    parseMid fill align (Nat.toDigits 10 k ++ rest) =
      match parseTail rest with
      | .error e => .error e
      | .ok (g, p, t) => .ok ⟨fill, align, none, false, false, some k, g, p, t⟩ := by
  obtain ⟨c, r, e, hc0, hcd, -⟩ := toDigits_head k hk
  rw [parseMid_fields, readNat_append k rest hr]
  intro d hd h
  rw [e] at hd
  simp only [List.cons_append, List.head?_cons, Option.mem_def, Option.some.injEq] at hd
  subst hd
  have h1 := (isDigit_facts c hcd).2
  simp only [List.mem_cons, List.not_mem_nil, or_false] at h h1
  tauto

/-- A format that begins with an alignment, alone. -/
theorem parseSpec_aligned (a : Char) (ha : isAlign a = true) (k : ℕ) (hk : 0 < k)
    (rest : List Char) (hr : ∀ c ∈ rest.head?, c.isDigit = false) :
    parseSpec (a :: (Nat.toDigits 10 k ++ rest)) =
      match parseTail rest with
      | .error e => .error e
      | .ok (g, p, t) => .ok ⟨none, some a, none, false, false, some k, g, p, t⟩ := by
  obtain ⟨c, r, e, -, hcd, -⟩ := toDigits_head k hk
  have h : parseSpec (a :: (Nat.toDigits 10 k ++ rest)) =
      parseMid none (some a) (Nat.toDigits 10 k ++ rest) := by
    rw [e, List.cons_append, parseSpec, if_neg (by rw [(isDigit_facts c hcd).1]; exact Bool.false_ne_true),
      if_pos ha]
  rw [h, parseMid_width _ _ k hk rest hr]

/-- The same with a width of one digit in front: the digit becomes the fill character. -/
theorem parseSpec_digit_aligned (w : ℕ) (hw : w < 10) (a : Char) (ha : isAlign a = true) (k : ℕ)
    (hk : 0 < k) (rest : List Char) (hr : ∀ c ∈ rest.head?, c.isDigit = false) :
    parseSpec (Nat.toDigits 10 w ++ a :: (Nat.toDigits 10 k ++ rest)) =
      match parseTail rest with
      | .error e => .error e
      | .ok (g, p, t) => .ok ⟨some w.digitChar, some a, none, false, false, some k, g, p, t⟩ := by
  rw [Nat.toDigits_of_lt_base hw, List.singleton_append, parseSpec, if_pos ha,
    parseMid_width _ _ k hk rest hr]

/-- With a longer width in front the format is refused. -/
theorem parseSpec_digits_aligned (w : ℕ) (hw : 10 ≤ w) (a : Char) (ha : isAlign a = true) (k : ℕ)
    (hk : 0 < k) (rest : List Char) :
    parseSpec (Nat.toDigits 10 w ++ a :: (Nat.toDigits 10 k ++ rest)) = .error .valueError := by
  obtain ⟨c, r, e, hc0, hcd, hrd⟩ := toDigits_head w (by omega)
  obtain ⟨d, r', e', -⟩ := toDigits_head k hk
  have hne : r ≠ [] := by
    rintro rfl
    have h1 := congrArg List.length (Nat.toDigits_of_base_le (b := 10) (by norm_num) hw)
    rw [e] at h1
    have h2 := List.length_pos_iff.2 (Nat.toDigits_ne_nil (b := 10) (n := w / 10))
    simp only [List.length_append, List.length_cons, List.length_nil] at h1
    omega
  obtain ⟨x, r2, rfl⟩ := List.exists_cons_of_ne_nil hne
  have h1 : parseSpec (Nat.toDigits 10 w ++ a :: (Nat.toDigits 10 k ++ rest)) =
      parseMid none none (Nat.toDigits 10 w ++ a :: (Nat.toDigits 10 k ++ rest)) := by
    refine parseSpec_noalign _ ?_ ?_ <;> intro y hy
    · rw [e] at hy
      simp only [List.cons_append, List.head?_cons, Option.mem_def, Option.some.injEq] at hy
      subst hy
      exact (isDigit_facts c hcd).1
    · rw [e] at hy
      simp only [List.cons_append, List.tail_cons, List.head?_cons, Option.mem_def,
        Option.some.injEq] at hy
      subst hy
      exact (isDigit_facts x (hrd x (by simp))).1
  have had : a.isDigit = false := by
    by_contra h
    rw [Bool.not_eq_false] at h
    rw [(isDigit_facts a h).1] at ha
    cases ha
  rw [h1, parseMid_width none none w (by omega) _ (by
    intro y hy
    simp only [List.head?_cons, Option.mem_def, Option.some.injEq] at hy
    subst hy
    exact had), e']
  rw [isAlign_iff] at ha
  simp only [List.mem_cons, List.not_mem_nil, or_false] at ha
  rcases ha with rfl | rfl | rfl | rfl <;> rfl

theorem padTo_aligned (a : Char) (ha : a ∈ ['<', '>', '^']) (fill : Option Char) (k : ℕ)
    (g : Option Char) (p : Option ℕ) (t : Option Char) (s : List Char) :
    padTo ⟨fill, some a, none, false, false, some k, g, p, t⟩ s =
      alignedField a k (fill.getD ' ') s := by
  simp only [List.mem_cons, List.not_mem_nil, or_false] at ha
  rcases ha with rfl | rfl | rfl <;> rfl

theorem printRow_ok {α : Type} (digits : FmtSpec → α → Option (List Char)) (fmt : List Char)
    {ι : Type} (w : ι → ℕ) (y : ι → α) (u : ι → List Char) (l : List ι)
    (h : ∀ j ∈ l, pyFormat digits (Nat.toDigits 10 (w j) ++ fmt) (y j) = .ok (u j)) :
    printRow digits fmt ((l.map w).zip (l.map y)) =
      .ok (l.map fun j => u j ++ [' ', ' ']).flatten := by
  induction l with
  | nil => rfl
  | cons a l ih =>
    simp only [List.map_cons, List.zip_cons_cons, printRow, List.flatten_cons]
    rw [h a (by simp), ih fun j hj => h j (by simp [hj])]

theorem printRow_error {α : Type} (digits : FmtSpec → α → Option (List Char)) (fmt : List Char)
    {ι : Type} (w : ι → ℕ) (y : ι → α) (l : List ι)
    (h : ∀ j ∈ l, (∃ u, pyFormat digits (Nat.toDigits 10 (w j) ++ fmt) (y j) = .ok u) ∨
      pyFormat digits (Nat.toDigits 10 (w j) ++ fmt) (y j) = .error .valueError)
    (hex : ∃ j ∈ l, pyFormat digits (Nat.toDigits 10 (w j) ++ fmt) (y j) = .error .valueError) :
    printRow digits fmt ((l.map w).zip (l.map y)) = .error .valueError := by
  induction l with
  | nil => obtain ⟨j, hj, -⟩ := hex; cases hj
  | cons a l ih =>
    simp only [List.map_cons, List.zip_cons_cons, printRow]
    rcases h a (by simp) with ⟨u, hu⟩ | hu
    · rw [hu]
      simp only
      rw [ih (fun j hj => h j (by simp [hj]))]
      obtain ⟨j, hj, he⟩ := hex
      rcases List.mem_cons.1 hj with rfl | hj
      · rw [hu] at he; cases he
      · exact ⟨j, hj, he⟩
    · rw [hu]

/-- A format that consists of an alignment, a width `k` and a plain rest: as soon as a column needs
ten or more characters matprint raises; otherwise every field has the right text on the right side
of a field of width `k`, but padded with the digit of the width of the column instead of spaces. -/
theorem C130_alignment {α : Type} {n m : ℕ} (hn : 0 < n)
    (digits : FmtSpec → α → Option (List Char)) (mat : Fin n → Fin m → α) (a : Char)
    (ha : a ∈ ['<', '>', '^']) (k : ℕ) (hk : 0 < k) (rest : List Char) (hf : PlainFmt rest)
    (s : Fin n → Fin m → List Char) (h : ∀ i j, pyFormat digits rest (mat i j) = .ok (s i j)) :
    (∀ i j, pyFormat digits (a :: (Nat.toDigits 10 k ++ rest)) (mat i j) =
      .ok (alignedField a k ' ' (s i j))) ∧
    ∀ w : Fin m → ℕ, (∀ j, IsGreatest (Set.range fun i => max k (s i j).length) (w j)) →
      ((∀ j, w j < 10) → matprint digits mat (a :: (Nat.toDigits 10 k ++ rest)) =
        .ok (List.ofFn fun i => (List.ofFn fun j =>
          alignedField a k (w j).digitChar (s i j) ++ [' ', ' ']).flatten)) ∧
      ((∃ j, 10 ≤ w j) → matprint digits mat (a :: (Nat.toDigits 10 k ++ rest)) =
        .error .valueError) := by
  have ha' : isAlign a = true := by
    rw [isAlign_iff]
    simp only [List.mem_cons, List.not_mem_nil, or_false] at ha ⊢
    tauto
  have hr : ∀ c ∈ rest.head?, c.isDigit = false := fun c hc => (hf.1 c hc).1
  -- the text of each entry
  have hs : ∀ i j, ∃ g p t, parseTail rest = .ok (g, p, t) ∧
      digits ⟨none, none, none, false, false, none, g, p, t⟩ (mat i j) = some (s i j) := by
    intro i j
    have := h i j
    unfold pyFormat at this
    rw [parseSpec_plain_eq rest hf] at this
    cases ht : parseTail rest with
    | error e => rw [ht] at this; cases this
    | ok v =>
      obtain ⟨g, p, t⟩ := v
      rw [ht] at this
      simp only at this
      refine ⟨g, p, t, rfl, ?_⟩
      cases hd : digits ⟨none, none, none, false, false, none, g, p, t⟩ (mat i j) with
      | none => rw [hd] at this; cases this
      | some u =>
        rw [hd] at this
        simp only [Except.ok.injEq] at this
        rw [← this]
        simp [padTo]
  have hT : ∀ i j, pyFormat digits (a :: (Nat.toDigits 10 k ++ rest)) (mat i j) =
      .ok (alignedField a k ' ' (s i j)) := by
    intro i j
    obtain ⟨g, p, t, h1, h2⟩ := hs i j
    unfold pyFormat
    rw [parseSpec_aligned a ha' k hk rest hr, h1]
    simp only [h2]
    rw [padTo_aligned a ha]
    rfl
  have hD : ∀ i j w, w < 10 →
      pyFormat digits (Nat.toDigits 10 w ++ a :: (Nat.toDigits 10 k ++ rest)) (mat i j) =
        .ok (alignedField a k w.digitChar (s i j)) := by
    intro i j w hw
    obtain ⟨g, p, t, h1, h2⟩ := hs i j
    unfold pyFormat
    rw [parseSpec_digit_aligned w hw a ha' k hk rest hr, h1]
    simp only [h2]
    rw [padTo_aligned a ha]
    rfl
  have hE : ∀ i j w, 10 ≤ w →
      pyFormat digits (Nat.toDigits 10 w ++ a :: (Nat.toDigits 10 k ++ rest)) (mat i j) =
        .error .valueError := by
    intro i j w hw
    unfold pyFormat
    rw [parseSpec_digits_aligned w hw a ha' k hk rest]
  refine ⟨hT, fun w hw => ?_⟩
  have hcol : ∀ j, colMax digits (a :: (Nat.toDigits 10 k ++ rest))
      ((List.finRange n).map fun i => mat i j) = .ok (w j) := by
    intro j
    obtain ⟨v, h1, h2⟩ := colMax_greatest hn digits _ (fun i => mat i j) _ fun i => hT i j
    simp only [alignedField_length] at h2
    rw [h1, h2.unique (hw j)]
  have hmp : matprint digits mat (a :: (Nat.toDigits 10 k ++ rest)) =
      (List.finRange n).mapM fun i => printRow digits (a :: (Nat.toDigits 10 k ++ rest))
        (((List.finRange m).map w).zip ((List.finRange m).map fun j => mat i j)) := by
    unfold matprint
    rw [py_mapM_ok _ w _ fun j _ => hcol j]
  rw [hmp]
  constructor
  · intro h10
    rw [py_mapM_ok _ (fun i => ((List.finRange m).map fun j =>
      alignedField a k (w j).digitChar (s i j) ++ [' ', ' ']).flatten)]
    · simp only [List.ofFn_eq_map]
    · intro i _
      exact printRow_ok digits _ w (mat i) _ _ fun j _ => hD i j (w j) (h10 j)
  · rintro ⟨j, hj⟩
    have hrow : ∀ i, printRow digits (a :: (Nat.toDigits 10 k ++ rest))
        (((List.finRange m).map w).zip ((List.finRange m).map fun j => mat i j)) =
          .error .valueError := by
      intro i
      refine printRow_error digits _ w (mat i) _ (fun j _ => ?_) ⟨j, by simp, hE i j _ hj⟩
      rcases Nat.lt_or_ge (w j) 10 with h1 | h1
      · exact Or.inl ⟨_, hD i j _ h1⟩
      · exact Or.inr (hE i j _ h1)
    obtain ⟨n, rfl⟩ : ∃ k, n = k + 1 := ⟨n - 1, by omega⟩
    rw [List.finRange_succ (n := n), List.mapM_cons, hrow]
    rfl

/-- The hypotheses of `C130_alignment` are met: the format `>3d`. -/
example : matprint intDigits ![![1, 7], ![1000, 25]] ('>' :: (Nat.toDigits 10 3 ++ ['d'])) =
    .ok ["441  337  ".toList, "1000  325  ".toList] := by
  have h := C130_alignment (n := 2) (m := 2) (by norm_num) intDigits ![![1, 7], ![1000, 25]] '>'
    (by simp) 3 (by norm_num) ['d'] ⟨by simp, by simp⟩
    ![!["1".toList, "7".toList], !["1000".toList, "25".toList]] (by decide +kernel)
  refine ((h.2 ![4, 3] ?_).1 (by decide)).trans (by decide +kernel)
  intro j
  fin_cases j
  · exact ⟨⟨1, rfl⟩, by rintro _ ⟨i, rfl⟩; fin_cases i <;> decide⟩
  · exact ⟨⟨0, rfl⟩, by rintro _ ⟨i, rfl⟩; fin_cases i <;> decide⟩

/-- A matrix without rows raises; a matrix without columns prints one empty line per row. -/
theorem C130_empty {α : Type} (digits : FmtSpec → α → Option (List Char)) (fmt : List Char)
    (n m : ℕ) (a : Fin 0 → Fin (m + 1) → α) (b : Fin n → Fin 0 → α) :
    matprint digits a fmt = .error .valueError ∧
    matprint digits b fmt = .ok (List.replicate n []) := by
  constructor
  · unfold matprint
    rw [List.finRange_succ, List.mapM_cons]
    rfl
  · unfold matprint
    simp only [List.finRange_zero, List.mapM_nil, List.map_nil]
    rw [show (pure [] : Py (List ℕ)) = .ok [] from rfl]
    simp only [List.zip_nil_left]
    rw [py_mapM_ok (fun _ => printRow digits fmt []) (fun _ => []) _ fun _ _ => rfl]
    simp

/-- Non-vacuity: integers under the format `d`. -/
example : PlainFmt "d".toList ∧
    (∀ x : ℤ, pyFormat intDigits "d".toList x =
      .ok ((if x < 0 then ['-'] else []) ++ Nat.toDigits 10 x.natAbs)) ∧
    matprint intDigits ![![1, -200], ![10, 3]] "d".toList =
      .ok [" 1  -200  ".toList, "10     3  ".toList] := by
  refine ⟨?_, ?_, by decide +kernel⟩
  · constructor
    · intro c hc
      simp only [Option.mem_def] at hc
      cases hc
      decide
    · intro c hc
      cases hc
  · intro x
    unfold pyFormat
    rw [show parseSpec "d".toList = .ok { type := some 'd' } from by decide +kernel]
    simp only [intDigits]
    by_cases hx : x < 0 <;> simp [hx, padTo]

/-! ## C131: the progress bar -/

/-- Before the first iteration nothing is logged; afterwards each call logs exactly one line:
the message given, or the text of the bar when there is none. The line goes to the logger given
to the constructor, or to the module's when there is none. -/
theorem C131_display {L : Type} (default : L) (n : ℕ) (msg : Option String) (text : String) :
    (∀ given, tqdmSend given default 0 msg text = []) ∧
    (0 < n → ∀ line, (line = text ∧ (msg = none ∨ msg = some "")) ∨ (msg = some line ∧ line ≠ "") →
      tqdmSend none default n msg text = [(default, line)] ∧
      ∀ logger, tqdmSend (some logger) default n msg text = [(logger, line)]) := by
  refine ⟨fun _ => rfl, fun h line hl => ?_⟩
  rcases hl with ⟨rfl, rfl | rfl⟩ | ⟨rfl, hl⟩
  · simp [tqdmSend, tqdmLogger, tqdmDisplay, h.ne']
  · simp [tqdmSend, tqdmLogger, tqdmDisplay, h.ne']
  · simp [tqdmSend, tqdmLogger, tqdmDisplay, h.ne', hl]

/-- Two calls of `display` on a bar without logger of its own. -/
example : tqdmSend none "module" 3 none "30%" = [("module", "30%")] ∧
    tqdmSend (some "mine") "module" 3 (some "done") "30%" = [("mine", "done")] :=
  ⟨((C131_display "module" 3 none "30%").2 (by norm_num) "30%" (Or.inl ⟨rfl, Or.inl rfl⟩)).1,
    ((C131_display "module" 3 (some "done") "30%").2 (by norm_num) "done"
      (Or.inr ⟨rfl, by decide⟩)).2 "mine"⟩

end RS
