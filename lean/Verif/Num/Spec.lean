/-
Specification vocabulary for exact arithmetic: what number an object stands for,
and which objects are well formed.
-/
import Verif.Num.Model

namespace Rep.Number

/-- The mathematical number a number object denotes. -/
def value : Num → Rat
  | .fix w => w
  | .big z => z
  | .rat q => q

/-- The integer an integer object denotes. -/
def intValue : Num → Int
  | .fix w => w
  | .big z => z
  | .rat q => q.num

/-- Objects that can exist: a fixnum holds 62 bits, a rational object is never
integral.  A bignum may hold any integer, including one that would fit a fixnum. -/
def WF : Num → Prop
  | .fix w => -(2 ^ 61) ≤ w ∧ w < 2 ^ 61
  | .big _ => True
  | .rat q => q.den ≠ 1

/-- Canonical objects: a bignum is used only if the integer does not fit a fixnum. -/
def Canonical : Num → Prop
  | .fix w => -(2 ^ 61) ≤ w ∧ w < 2 ^ 61
  | .big z => ¬ (-(2 ^ 61) ≤ z ∧ z < 2 ^ 61)
  | .rat q => q.den ≠ 1

/-- The object is an integer (`integerp`). -/
def IsInteger (n : Num) : Prop := ∃ z : Int, value n = z

/-- A result is the exact number `r`, as a canonical object. -/
def IsExactly (res : Res Num) (r : Rat) : Prop :=
  ∃ v, res = .ok v ∧ value v = r ∧ Canonical v

end Rep.Number
