import Verif.Environ.Model

/-
What is claimed about the environment: it maps names to values.
-/

namespace Rep.Environ

/-- The name and the value in a string. -/
def parts (s : Str) : Option (Str × Str) :=
  if 61 ∈ s then some (s.takeWhile (· ≠ 61), (s.dropWhile (· ≠ 61)).tail) else none

/-- The value of a name: of the first string that has it.  This is what `getenv` of the C library
returns, too. -/
def value (name : Str) (env : List Str) : Option Str :=
  ((env.filterMap parts).find? (·.1 == name)).map (·.2)

/-- The value of a name after a history of operations. -/
def after (name : Str) (v : Option Str) : List Op → Option Str
  | [] => v
  | .set n x :: os => after name (if n = name then some x else v) os
  | .unset n :: os => after name (if n = name then none else v) os

/-- Names that can be used. -/
def Ok (name : Str) : Prop := 61 ∉ name ∧ Regex.NoNul name ∧ name.length < 6500

def Op.Ok : Op → Prop
  | .set n v => Environ.Ok n ∧ Regex.NoNul v
  | .unset n => Environ.Ok n

end Rep.Environ
