import Verif.Dbl.Model

/-
`sqrt`: src/numbers.c:2495-2510.  `sqrt` of the C library is a parameter; its contract is in Sqrt.lean.
-/

namespace Rep.Dbl

open Rep.Number (Res)

/-- `d >= 0` -/
def F64.nonneg : F64 → Bool
  | .fin q => decide (0 ≤ q)
  | .inf s => !s
  | .nan => false

/-- `sqrt` of the C library where it is called: on numbers that are not negative, and infinity. -/
def F64.sqrt (f : ℚ → ℚ) : F64 → F64
  | .fin q => .fin (f q)
  | d => d

/-- `rep_NUMBER_INEXACT_P` -/
def inexact : Number → Bool
  | .fl _ => true
  | .ex _ => false

/-- `Fsqrt` (numbers.c:2495-2510) -/
def sqrt (f : ℚ → ℚ) (x : Number) : Res Number :=
  let d := getFloat x
  if d.nonneg then .ok (makeFloat (d.sqrt f) (inexact x)) else .arithError

end Rep.Dbl
