import Mathlib.Data.List.Basic
import Mathlib.Data.Fintype.Basic
import Mathlib.Data.List.FinRange
import Verif.Model.Py

/-
Model of robuststats/utils/verbose.py: `matprint` (53-63) with the part of Python's format
mini-language it relies on, and `logging_tqdm.display` (44-50).

Texts are lists of characters. Simplifications: format strings without braces (no nested
fields) and without the `z` flag of Python 3.11; commas are not inserted into zero padding.
-/
set_option autoImplicit false

namespace RS

/-- A parsed format specifier, `[[fill]align][sign][#][0][width][grouping][.precision][type]`. -/
structure FmtSpec where
  fill : Option Char := none
  align : Option Char := none
  sign : Option Char := none
  alt : Bool := false
  zero : Bool := false
  width : Option ℕ := none
  grouping : Option Char := none
  precision : Option ℕ := none
  type : Option Char := none
  deriving DecidableEq

/-- The alignment characters. -/
def isAlign (c : Char) : Bool := c = '<' || c = '>' || c = '=' || c = '^'

/-- The sign characters. -/
def isSign (c : Char) : Bool := c = '+' || c = '-' || c = ' '

/-- A run of decimal digits and what follows. -/
def readNat (l : List Char) : Option ℕ × List Char :=
  match l.takeWhile Char.isDigit with
  | [] => (none, l)
  | ds => (some (Nat.ofDigitChars 10 ds 0), l.dropWhile Char.isDigit)

/-- Whether the text begins with `c`, and what follows it if so. -/
def readChar (c : Char) : List Char → Bool × List Char
  | d :: r => if d = c then (true, r) else (false, d :: r)
  | [] => (false, [])

/-- Last fields: `[grouping][.precision][type]`. -/
def parseTail (l : List Char) : Py (Option Char × Option ℕ × Option Char) :=
  let (g, l) := match l with
    | ',' :: r => (some ',', r)
    | '_' :: r => (some '_', r)
    | l => (none, l)
  let fin (p : Option ℕ) : List Char → Py (Option Char × Option ℕ × Option Char)
    | [] => .ok (g, p, none)
    | [t] => .ok (g, p, some t)
    | _ => .error .valueError
  match l with
  | '.' :: r =>
    match readNat r with
    | (none, _) => .error .valueError
    | (some p, r) => fin (some p) r
  | l => fin none l

/-- A sign character, if the text begins with one, and what follows. -/
def readSign : List Char → Option Char × List Char
  | c :: r => if isSign c then (some c, r) else (none, c :: r)
  | [] => (none, [])

/-- Middle fields: `[sign][#][0][width]`, then the rest. -/
def parseMid (fill align : Option Char) (l : List Char) : Py FmtSpec :=
  let s := readSign l
  let a := readChar '#' s.2
  let z := if fill = none then readChar '0' a.2 else (false, a.2)
  let w := readNat z.2
  match parseTail w.2 with
  | .error e => .error e
  | .ok (g, p, t) => .ok ⟨fill, align, s.1, a.1, z.1, w.1, g, p, t⟩

/-- CPython's `parse_internal_render_format_spec`. -/
def parseSpec : List Char → Py FmtSpec
  | c :: d :: r =>
    if isAlign d then parseMid (some c) (some d) r
    else if isAlign c then parseMid none (some c) (d :: r)
    else parseMid none none (c :: d :: r)
  | [c] => if isAlign c then parseMid none (some c) [] else parseMid none none [c]
  | [] => parseMid none none []

/-- Padding of the text `s` of a number. Without an alignment numbers go to the right; the `0`
flag fills with zeros after the sign. -/
def padTo (f : FmtSpec) (s : List Char) : List Char :=
  let k := f.width.getD 0 - s.length
  let c := f.fill.getD (if f.zero then '0' else ' ')
  match f.align.getD (if f.zero then '=' else '>') with
  | '<' => s ++ List.replicate k c
  | '^' => List.replicate (k / 2) c ++ s ++ List.replicate (k - k / 2) c
  | '=' =>
    match s with
    | d :: r => if isSign d then d :: (List.replicate k c ++ r) else List.replicate k c ++ s
    | [] => List.replicate k c
  | _ => List.replicate k c ++ s

/-- `("{:" + spec + "}").format(x)`. `digits` is the text of a number before padding, which
depends on the fields other than fill, alignment and width; `none` when the type of the
number refuses them (ValueError). -/
def pyFormat {α : Type} (digits : FmtSpec → α → Option (List Char)) (spec : List Char) (x : α) :
    Py (List Char) :=
  match parseSpec spec with
  | .error e => .error e
  | .ok f =>
    match digits { f with fill := none, align := none, width := none } x with
    | none => .error .valueError
    | some s => .ok (padTo f s)

/-- Text of an integer, `int.__format__`, for the type `d` or none, without grouping and
precision. -/
def intDigits (f : FmtSpec) (x : ℤ) : Option (List Char) :=
  if f.precision.isSome ∨ f.grouping.isSome ∨ ¬(f.type = none ∨ f.type = some 'd') then none
  else
    let sgn : List Char :=
      if x < 0 then ['-'] else
        match f.sign with
        | some '+' => ['+']
        | some ' ' => [' ']
        | _ => []
    some (sgn ++ Nat.toDigits 10 x.natAbs)

/-- verbose.py:58-59 `max([len(("{:"+fmt+"}").format(x)) for x in col])`; the maximum of an
empty list raises. -/
def colMax {α : Type} (digits : FmtSpec → α → Option (List Char)) (fmt : List Char)
    (col : List α) : Py ℕ :=
  match col.mapM (pyFormat digits fmt) with
  | .error e => .error e
  | .ok [] => .error .valueError
  | .ok (s :: ss) => .ok (((s :: ss).map List.length).foldl max 0)

/-- verbose.py:60-62 one printed line, without the newline. -/
def printRow {α : Type} (digits : FmtSpec → α → Option (List Char)) (fmt : List Char) :
    List (ℕ × α) → Py (List Char)
  | [] => .ok []
  | (w, y) :: r =>
    match pyFormat digits (Nat.toDigits 10 w ++ fmt) y with
    | .error e => .error e
    | .ok s =>
      match printRow digits fmt r with
      | .error e => .error e
      | .ok t => .ok (s ++ [' ', ' '] ++ t)

/-- verbose.py:53-63 `matprint(mat, fmt)` on a two-dimensional array: the printed lines, or
the exception. Simplification: the fields printed before an exception are dropped. -/
def matprint {α : Type} {n m : ℕ} (digits : FmtSpec → α → Option (List Char))
    (mat : Fin n → Fin m → α) (fmt : List Char) : Py (List (List Char)) :=
  match (List.finRange m).mapM (fun j => colMax digits fmt ((List.finRange n).map fun i => mat i j)) with
  | .error e => .error e
  | .ok maxes =>
    (List.finRange n).mapM fun i =>
      printRow digits fmt (maxes.zip ((List.finRange m).map fun j => mat i j))

/-- verbose.py:44-50 `logging_tqdm.display`: what is sent to the logger's `info`. `n` is the
number of iterations done, `text` the text of the bar. -/
def tqdmDisplay (n : ℕ) (msg : Option String) (text : String) : List String :=
  if n = 0 then []
  else
    match msg with
    | some m => if m = "" then [text] else [m]
    | none => [text]

/-- verbose.py:38-42 the logger used: the one given to the constructor, otherwise the
module's. -/
def tqdmLogger {L : Type} (given : Option L) (default : L) : L := given.getD default

/-- verbose.py:38-50 one call of `display`: the lines sent, each with the logger it is sent to. -/
def tqdmSend {L : Type} (given : Option L) (default : L) (n : ℕ) (msg : Option String)
    (text : String) : List (L × String) :=
  (tqdmDisplay n msg text).map fun s => (tqdmLogger given default, s)

end RS
