import Verif.Num.Model
import Mathlib.Data.Int.Log
import Mathlib.Data.Rat.Floor
import Mathlib.Algebra.Order.Field.Rat

/-
Floating point numbers in the number tower (src/numbers.c, with HAVE_GMP, LP64): rounding to integers, comparison,
conversion between exact and inexact numbers, numerator and denominator.

A `double` is IEEE 754 binary64 in the default rounding mode, with subnormal numbers.  A finite one is the rational it
stands for; the sign of zero is left out.  The functions of the C library used (`floor`, `ceil`, `frexp`, `pow (2.0, n)`)
are exact.
-/

namespace Rep.Dbl

open Rep.Number (Num Res makeLongInt maybeDemote)

inductive F64
  | nan
  | inf (neg : Bool)
  | fin (q : ℚ)
  deriving DecidableEq

/-- A number object (src/rep_lisp.h:344-362). -/
inductive Number
  | ex (n : Num)
  | fl (d : F64)
  deriving DecidableEq

/-- The exponent of the last place of a number: 53 bits, but not below 2^-1074. -/
def expo (q : ℚ) : Int := max (Int.log 2 |q| - 52) (-1074)

def ulp (q : ℚ) : ℚ := 2 ^ expo q

/-- Towards zero. -/
def trunc (q : ℚ) : Int := if 0 ≤ q then ⌊q⌋ else ⌈q⌉

/-- To the nearest integer, ties to even. -/
def nearest (q : ℚ) : Int :=
  if q - ⌊q⌋ < 1 / 2 then ⌊q⌋ else if 1 / 2 < q - ⌊q⌋ then ⌊q⌋ + 1 else if ⌊q⌋ % 2 = 0 then ⌊q⌋ else ⌊q⌋ + 1

/-- Too large numbers are infinite. -/
def pack (q : ℚ) : F64 := if |q| < 2 ^ 1024 then .fin q else .inf (decide (q < 0))

/-- The result of a floating point operation whose exact result is `q`. -/
def rne (q : ℚ) : F64 := pack (nearest (q / ulp q) * ulp q)

/-- `mpz_get_d` and `mpq_get_d` (GMP): rounding is towards zero. -/
def rtz (q : ℚ) : F64 := pack (trunc (q / ulp q) * ulp q)

/-- The conversion to `double` in `promote_to` (src/numbers.c:365-368, 386-390, 399-403) and `rep_get_float` (numbers.c:754): a
`long` is rounded to nearest. -/
def getFloat : Number → F64
  | .ex (.fix w) => rne w
  | .ex (.big z) => rtz z
  | .ex (.rat q) => rtz q
  | .fl d => d

/-- `floor`, `ceil` (C library) -/
def F64.floor : F64 → F64
  | .fin q => .fin ⌊q⌋
  | d => d

def F64.ceil : F64 → F64
  | .fin q => .fin ⌈q⌉
  | d => d

/-- Addition of a finite number. -/
def F64.add (d : F64) (x : ℚ) : F64 :=
  match d with
  | .fin q => rne (q + x)
  | d => d

/-- Halving. -/
def F64.half : F64 → F64
  | .fin q => rne (q / 2)
  | d => d

def F64.neg : F64 → F64
  | .fin q => .fin (-q)
  | .inf s => .inf !s
  | .nan => .nan

/-- `==` -/
def F64.eq : F64 → F64 → Bool
  | .fin a, .fin b => a == b
  | .inf a, .inf b => a == b
  | _, _ => false

/-- `d < 0.0` -/
def F64.negative : F64 → Bool
  | .fin q => decide (q < 0)
  | .inf s => s
  | .nan => false

/-- A `double` converted to `long`: undefined if it does not fit. -/
def toLong : F64 → Res Int
  | .fin q => Rep.Number.clong (trunc q)
  | _ => .ub

/-- `rep_make_long_int` of a `double` -/
def makeLong (d : F64) : Res Number := (toLong d).bind fun i => .ok (.ex (makeLongInt i))

/-- `Ffloor` (numbers.c:2237) -/
def floor : Number → Res Number
  | .ex (.rat q) => makeLong (rtz q).floor
  | .ex n => .ok (.ex n)
  | .fl d => .ok (.fl d.floor)

/-- `Fceiling` (numbers.c:2263) -/
def ceiling : Number → Res Number
  | .ex (.rat q) => makeLong (rtz q).ceil
  | .ex n => .ok (.ex n)
  | .fl d => .ok (.fl d.ceil)

/-- numbers.c:2311 -/
def F64.truncate (d : F64) : F64 := if d.negative then d.neg.floor.neg else d.floor

/-- `Ftruncate` (numbers.c:2289) -/
def truncate : Number → Res Number
  | .ex (.rat q) => makeLong (rtz q).truncate
  | .ex n => .ok (.ex n)
  | .fl d => .ok (.fl d.truncate)

/-- numbers.c:2346-2350 -/
def F64.round (d : F64) : F64 :=
  let plusHalf := d.add (1 / 2)
  let result := plusHalf.floor
  if plusHalf.eq result && !(plusHalf.half.eq plusHalf.half.floor) then result.add (-1) else result

/-- `Fround` (numbers.c:2323) -/
def round : Number → Res Number
  | .ex (.rat q) => makeLong (rtz q).round
  | .ex n => .ok (.ex n)
  | .fl d => .ok (.fl d.round)

/-! ### Comparison -/

/-- The sign of the difference of two `double`s (numbers.c:809-811). -/
def F64.cmp : F64 → F64 → Int
  | .nan, _ => 0
  | _, .nan => 0
  | .inf a, .inf b => if a == b then 0 else if a then -1 else 1
  | .inf a, .fin _ => if a then -1 else 1
  | .fin _, .inf b => if b then 1 else -1
  | .fin a, .fin b =>
    match rne (a - b) with
    | .fin d => if d < 0 then -1 else if 0 < d then 1 else 0
    | .inf s => if s then -1 else 1
    | .nan => 0

/-- `rep_compare_numbers` (numbers.c:784) -/
def compare (x y : Number) : Int :=
  match x, y with
  | .ex a, .ex b => Rep.Number.compare a b
  | x, y => (getFloat x).cmp (getFloat y)

/-! ### Conversion -/

/-- `exact->inexact` (numbers.c:2643) -/
def exactToInexact : Number → Number
  | .fl d => .fl d
  | n => .fl (getFloat n)

/-- `frexp`: the fraction, at least 1/2 in size, and the exponent (C library; exact). -/
def frexp (q : ℚ) : ℚ × Int := if q = 0 then (0, 0) else (q / 2 ^ (Int.log 2 |q| + 1), Int.log 2 |q| + 1)

/-- `DBL_EPSILON` -/
def epsilon : ℚ := 1 / 2 ^ 52

/-- The loop of `rationalize` (numbers.c:2671-2675).  The differences and the products `x * 2.0` are exact; `y` may become infinite. -/
def ratLoop : Nat → ℚ → F64 → Option (ℚ × F64)
  | 0, _, _ => none
  | fuel + 1, x, y =>
    if x - ⌊x⌋ > epsilon then
      ratLoop fuel (x * 2) (match y with | .fin y => pack (y * 2) | y => y)
    else some (x, y)

/-- `rationalize` (numbers.c:2658), of a finite number: numerator and denominator. -/
def rationalize (q : ℚ) : Option (ℚ × F64) :=
  let f := frexp q
  ratLoop 64 f.1 (pack (2 ^ (-f.2)))

/-- `rep_make_float` (numbers.c:735).  `LONG_MAX` and `LONG_MIN` are converted to 2^63 and -2^63. -/
def makeFloat (d : F64) (force : Bool) : Number :=
  match d with
  | .fin q => if force = false ∧ (⌊q⌋ : ℚ) = q ∧ q < 2 ^ 63 ∧ -(2 ^ 63) < q then .ex (makeLongInt (trunc q)) else .fl d
  | d => .fl d

/-- `inexact->exact` (numbers.c:2684): `mpz_init_set_d` drops the fraction, and aborts if there is no number. -/
def inexactToExact : Number → Res Number
  | .ex n => .ok (.ex n)
  | .fl (.fin q) =>
    match rationalize q with
    | none => .ub
    | some (_, .nan) => .ub
    | some (_, .inf _) => .ok (.ex (maybeDemote (.big 0)))
    | some (x, .fin y) =>
      match rne (x / y) with
      | .fin r => .ok (.ex (maybeDemote (.big (trunc r))))
      | _ => .ub
  | .fl _ => .ub

/-- `numerator` (numbers.c:2725).  The type of a fixnum is looked up in memory (`rep_NUMBER_RATIONAL_P`). -/
def numerator : Number → Res Number
  | .ex (.fix _) => .ub
  | .ex (.rat q) => .ok (.ex (maybeDemote (.big q.num)))
  | .ex (.big z) =>
    match rtz z with
    | .fin q => match rationalize q with | none => .ub | some (x, _) => .ok (makeFloat (.fin x) false)
    | d => .ok (makeFloat d false)
  | .fl (.fin q) => match rationalize q with | none => .ub | some (x, _) => .ok (.fl (.fin x))
  | .fl d => .ok (.fl d)

/-- `denominator` (numbers.c:2754).  For an infinite number or none the result is not specified (`frexp`). -/
def denominator : Number → Res Number
  | .ex (.fix _) => .ub
  | .ex (.rat q) => .ok (.ex (maybeDemote (.big q.den)))
  | .ex (.big z) =>
    match rtz z with
    | .fin q => match rationalize q with | none => .ub | some (_, y) => .ok (makeFloat y false)
    | _ => .ub
  | .fl (.fin q) => match rationalize q with | none => .ub | some (_, y) => .ok (.fl y)
  | .fl _ => .ub

end Rep.Dbl
