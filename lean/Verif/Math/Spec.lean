import Verif.Num.Spec

/-
Specification vocabulary for the integer functions of lisp/rep/lang/math.jl.
-/

namespace Rep.Math

open Rep.Number

/-- `m` is the least common multiple of `x` and `y`: a multiple of both that divides every
common multiple, and not negative. -/
def IsLcm (m x y : Int) : Prop :=
  0 ≤ m ∧ x ∣ m ∧ y ∣ m ∧ ∀ k : Int, x ∣ k → y ∣ k → m ∣ k

/-- Arguments on which `(max x (- x))` compares correctly: not fixnums of 31 bits or more. -/
def Small (x : Num) : Prop := ∀ a, x = .fix a → -(2 ^ 30) ≤ a ∧ a < 2 ^ 30

end Rep.Math
