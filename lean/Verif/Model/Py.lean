/-
Python-level conventions shared by the whole model.

Simplification: only the class of an exception is modelled, not its message.
-/
set_option autoImplicit false

namespace RS

universe u v w

/-- The exception classes raised by the modelled code. -/
inductive PyErr where
  | valueError
  | typeError
  | attributeError
  | assertionError
  | notImplementedError
  | indexError
  | keyError
  | nameError
  | linAlgError
  deriving DecidableEq, Repr

/-- A Python computation without side effects: a value or an exception. -/
abbrev Py (α : Type u) : Type u := Except PyErr α

end RS
