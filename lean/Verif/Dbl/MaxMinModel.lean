import Verif.Dbl.Model

/-
`max` and `min` (src/numbers.c:1731-1760, 2783-2805).

Simplification: all objects that are not numbers are one, `other`; two of them are not compared further
(`rep_value_cmp`).
-/

namespace Rep.Dbl

open Rep.Number (Res)

inductive Arg
  | num (x : Number)
  | other
  deriving DecidableEq

/-- `rep_compare_numbers`, `rep_value_cmp` (numbers.c:784-788) -/
def cmpArg : Arg → Arg → Int
  | .num x, .num y => compare x y
  | .other, .other => 0
  | _, _ => 1

/-- `rep_NUMBER_INEXACT_P` -/
def inexactP : Arg → Bool
  | .num (.fl _) => true
  | _ => false

/-- The end of `rep_number_max` and `rep_number_min` (numbers.c:1738-1739). -/
def contagion (x y m : Arg) : Res Arg :=
  if inexactP x || inexactP y then
    match m with
    | .num n => .ok (.num (exactToInexact n))
    | .other => .argError 1
  else .ok m

/-- `rep_number_max` (numbers.c:1731-1745) -/
def max2 (x y : Arg) : Res Arg := contagion x y (if cmpArg x y ≥ 0 then x else y)

/-- `rep_number_min` (numbers.c:1747-1760) -/
def min2 (x y : Arg) : Res Arg := contagion x y (if cmpArg x y ≤ 0 then x else y)

/-- The loop of `foldv` (numbers.c:1346-1349): it goes on after an error, with a null pointer. -/
def foldLoop (op : Arg → Arg → Res Arg) : Res Arg → List Arg → Res Arg
  | r, [] => r
  | .ok x, y :: l => foldLoop op (op x y) l
  | _, _ :: _ => .ub

/-- `Fmax` (numbers.c:2783) -/
def maxV : List Arg → Res Arg
  | [] => .missingArg 1
  | x :: l => foldLoop max2 (.ok x) l

/-- `Fmin` (numbers.c:2795) -/
def minV : List Arg → Res Arg
  | [] => .missingArg 1
  | x :: l => foldLoop min2 (.ok x) l

end Rep.Dbl
