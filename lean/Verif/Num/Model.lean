/-
Model of the exact part of librep's number tower (src/numbers.c, with HAVE_GMP,
on an LP64 machine).  Floating point numbers are not modelled.

GMP integers (`mpz_t`) are Lean `Int`, GMP rationals (`mpq_t`) are Lean `Rat`.
A fixnum is represented by the integer `rep_INT (v)` it stands for.
-/
import Mathlib.Data.Int.Bitwise
import Mathlib.Data.Rat.Defs

namespace Rep.Number

/-- src/rep_lisp.h:134  `rep_LISP_MAX_INT` for 62 bit fixnums. -/
def maxInt : Int := 2 ^ 61 - 1

/-- src/rep_lisp.h:136  `rep_LISP_MIN_INT`. -/
def minInt : Int := -(2 ^ 61)

/-- An exact number object.  src/numbers.c:60-120 (`rep_NUMBER_INT`,
`rep_NUMBER_BIGNUM`, `rep_NUMBER_RATIONAL`); `rep_NUMBER_FLOAT` is left out. -/
inductive Num where
  | fix (w : Int)
  | big (z : Int)
  | rat (q : Rat)
  deriving DecidableEq, Repr

/-- A Lisp value as far as arithmetic can tell: a number, or something else
(`rep_NUMERICP` false). -/
inductive Val where
  | num (n : Num)
  | other
  deriving DecidableEq, Repr

/-- Outcome of a C function returning a `repv`. -/
inductive Res (α : Type) where
  | ok (v : α)
  /-- `Fsignal (Qarith_error, …)`, value NULL -/
  | arithError
  /-- `rep_signal_arg_error (…, n)`, value NULL -/
  | argError (n : Nat)
  /-- `rep_signal_missing_arg (n)`, value NULL -/
  | missingArg (n : Nat)
  /-- undefined behaviour of C: signed overflow, oversized shift, use of NULL -/
  | ub
  deriving DecidableEq, Repr

namespace Res
/-- Sequencing inside one C function. -/
def bind {α β : Type} (r : Res α) (f : α → Res β) : Res β :=
  match r with
  | ok v => f v
  | arithError => arithError
  | argError n => argError n
  | missingArg n => missingArg n
  | ub => ub
end Res

/-- Result of a signed 64-bit C computation: undefined if it overflows. -/
def clong (x : Int) : Res Int :=
  if -(2 ^ 63) ≤ x ∧ x < 2 ^ 63 then .ok x else .ub

/-- src/rep_lisp.h:125-130  `rep_MAKE_INT` then `rep_INT`: shift left by two and
arithmetic shift right by two on a 64-bit word, i.e. reduction to 62 bits. -/
def makeInt (x : Int) : Num := .fix (Int.bmod x (2 ^ 62))

/-- src/numbers.c:552  `rep_make_long_int`. -/
def makeLongInt (x : Int) : Num :=
  if minInt ≤ x ∧ x ≤ maxInt then makeInt x else .big x

/-- src/numbers.c:721  `rep_make_longlong_int` where `long long` is no larger
than `long`. -/
def makeLonglongInt (x : Int) : Num := makeLongInt x

/-- `mpz_get_si` (GMP): the value if it fits a `long`, otherwise the sign and the
low 63 bits of the absolute value. -/
def mpzGetSi (z : Int) : Int :=
  if -(2 ^ 63) ≤ z ∧ z < 2 ^ 63 then z
  else if z < 0 then -1 - (((-z - 1).toNat % 2 ^ 63 : Nat) : Int)
  else ((z.toNat % 2 ^ 63 : Nat) : Int)

/-- Numeric type codes are ordered, src/numbers.c:70-75. -/
def typeCode : Num → Nat
  | .fix _ => 0
  | .big _ => 1
  | .rat _ => 2

/-- src/numbers.c:329  `promote_to`, on the exact types. -/
def promoteTo (n : Num) (t : Nat) : Num :=
  if typeCode n ≥ t then n else
  match n, t with
  | .fix w, 1 => .big w
  | .fix w, 2 => .rat (w : Rat)
  | .big z, 2 => .rat (z : Rat)
  | n, _ => n

/-- src/numbers.c:415  `maybe_demote`. -/
def maybeDemote : Num → Num
  | .rat q =>
      if q.den = 1 then
        (if q.num ≤ maxInt ∧ q.num ≥ minInt then makeInt (mpzGetSi q.num) else .big q.num)
      else .rat q
  | .big z => if z ≤ maxInt ∧ z ≥ minInt then makeInt (mpzGetSi z) else .big z
  | .fix w => .fix w

/-- Which operand the result cell of `promote_dup` is.  src/numbers.c:499-533:
when the types differ, `out` *is* the promoted operand; otherwise it is a fresh
copy of the first. -/
inductive Alias where
  | fresh
  | first
  | second
  deriving DecidableEq, Repr

/-- src/numbers.c:524  `promote_dup`: the two operands after promotion, and what
the output cell aliases. -/
def promoteDup (x y : Num) : Num × Num × Alias :=
  if typeCode x > typeCode y then (x, promoteTo y (typeCode x), .second)
  else if typeCode x < typeCode y then (promoteTo x (typeCode y), y, .first)
  else (x, y, .fresh)

/-- src/numbers.c:1354  `rep_number_add` (no GMP operation used here is affected by
operand aliasing). -/
def add (x y : Num) : Res Num :=
  match promoteDup x y with
  | (.fix a, .fix b, _) => (clong (a + b)).bind fun t => .ok (makeLongInt t)
  | (.big a, .big b, _) => .ok (maybeDemote (.big (a + b)))
  | (.rat a, .rat b, _) => .ok (maybeDemote (.rat (a + b)))
  | _ => .ub

/-- src/numbers.c:1395  `rep_number_neg`. -/
def neg (x : Num) : Res Num :=
  match x with
  | .fix a => (clong (-a)).bind fun t => .ok (makeLongInt t)
  | .big a => .ok (.big (-a))
  | .rat a => .ok (.rat (-a))

/-- src/numbers.c:1433  `rep_number_sub`. -/
def sub (x y : Num) : Res Num :=
  match promoteDup x y with
  | (.fix a, .fix b, _) => (clong (a - b)).bind fun t => .ok (makeLongInt t)
  | (.big a, .big b, _) => .ok (maybeDemote (.big (a - b)))
  | (.rat a, .rat b, _) => .ok (maybeDemote (.rat (a - b)))
  | _ => .ub

/-- src/numbers.c:1474  `rep_number_mul`; `rep_long_long` has 64 bits. -/
def mul (x y : Num) : Res Num :=
  match promoteDup x y with
  | (.fix a, .fix b, _) => (clong (a * b)).bind fun t => .ok (makeLonglongInt t)
  | (.big a, .big b, _) => .ok (maybeDemote (.big (a * b)))
  | (.rat a, .rat b, _) => .ok (maybeDemote (.rat (a * b)))
  | _ => .ub

/-- src/numbers.c:153, 2047  `ZEROP` / `Fzerop` on exact numbers. -/
def zerop : Num → Bool
  | .fix w => w == 0
  | .big z => z == 0
  | .rat q => q == 0

/-- src/numbers.c:1518  `rep_number_div`. -/
def div (x y : Num) : Res Num :=
  if zerop y then .arithError else
  match promoteDup x y with
  | (.fix a, .fix b, _) =>
      if Int.tmod a b = 0 then .ok (makeInt (Int.tdiv a b))
      else .ok (.rat (if b < 0 then -((a : Rat) / ((-b : Int) : Rat)) else (a : Rat) / (b : Rat)))
  | (.big a, .big b, _) =>
      if Int.tmod a b = 0 then .ok (maybeDemote (.big (Int.tdiv a b)))
      else .ok (.rat ((a : Rat) / (b : Rat)))
  | (.rat a, .rat b, _) => .ok (maybeDemote (.rat (a / b)))
  | _ => .ub

/-- src/numbers.c:1856  `Fremainder`. -/
def remainder (x y : Num) : Res Num :=
  if zerop y then .arithError else
  match promoteDup x y with
  | (.fix a, .fix b, _) => .ok (makeInt (Int.tmod a b))
  | (.big a, .big b, _) => .ok (maybeDemote (.big (Int.tmod a b)))
  | _ => .argError 1

/-- src/numbers.c:1895  `Fmod`.  In the bignum case the remainder is stored into
`out` *before* the sign of `n2` is inspected (lines 1936-1940), so when `out`
aliases `n2` it is the remainder's own sign that is compared. -/
def mod (x y : Num) : Res Num :=
  if zerop y then .arithError else
  match promoteDup x y with
  | (.fix a, .fix b, _) =>
      let tem := Int.tmod a b
      let tem := if (if b < 0 then tem > 0 else tem < 0) then tem + b else tem
      .ok (makeInt tem)
  | (.big a, .big b, al) =>
      let r := Int.tmod a b
      let n2 := if al = .second then r else b
      let r' := if (if n2 < 0 then r > 0 else r < 0) then r + n2 else r
      .ok (maybeDemote (.big r'))
  | _ => .argError 1

/-- `rep_INTEGERP` on exact numbers. -/
def integerp : Num → Bool
  | .rat _ => false
  | _ => true

/-- src/numbers.c:1957  `Fquotient`. -/
def quotient (x y : Num) : Res Num :=
  if !integerp x then .argError 1
  else if !integerp y then .argError 2
  else if zerop y then .arithError else
  match promoteDup x y with
  | (.fix a, .fix b, _) => .ok (makeInt (Int.tdiv a b))
  | (.big a, .big b, _) => .ok (maybeDemote (.big (Int.tdiv a b)))
  | _ => .ub

/-- src/numbers.c:1611  `rep_number_lognot`; 64-bit complement. -/
def lognot (x : Num) : Res Num :=
  match x with
  | .fix a => .ok (makeInt (~~~(BitVec.ofInt 64 a)).toInt)
  | .big a => .ok (.big (Int.lnot a))
  | .rat _ => .argError 1

/-- src/numbers.c:1641  `rep_number_logior`. -/
def logior (x y : Num) : Res Num :=
  match promoteDup x y with
  | (.fix a, .fix b, _) => .ok (makeInt (BitVec.ofInt 64 a ||| BitVec.ofInt 64 b).toInt)
  | (.big a, .big b, _) => .ok (.big (Int.lor a b))
  | _ => .argError 1

/-- src/numbers.c:1668  `rep_number_logxor`: `(x|y) & ~(x&y)` on bignums. -/
def logxor (x y : Num) : Res Num :=
  match promoteDup x y with
  | (.fix a, .fix b, _) => .ok (makeInt (BitVec.ofInt 64 a ^^^ BitVec.ofInt 64 b).toInt)
  | (.big a, .big b, _) =>
      let tem := Int.lor a b
      let out := Int.land a b
      let out := Int.lnot out
      .ok (.big (Int.land out tem))
  | _ => .argError 1

/-- src/numbers.c:1705  `rep_number_logand`. -/
def logand (x y : Num) : Res Num :=
  match promoteDup x y with
  | (.fix a, .fix b, _) => .ok (makeInt (BitVec.ofInt 64 a &&& BitVec.ofInt 64 b).toInt)
  | (.big a, .big b, _) => .ok (.big (Int.land a b))
  | _ => .argError 1

/-- src/numbers.c:1771-1776  the loop of `rep_integer_gcd`. -/
def gcdLoop (m n : Nat) : Nat :=
  if _h : m = 0 then n else gcdLoop (n % m) m
termination_by m
decreasing_by exact Nat.mod_lt _ (Nat.pos_of_ne_zero _h)

/-- src/numbers.c:1762  `rep_integer_gcd`.  Only called on integers (by
`integer_foldv` and `Fgcd`). -/
def gcd (x y : Num) : Res Num :=
  match promoteDup x y with
  | (.fix a, .fix b, _) => .ok (makeInt (gcdLoop a.natAbs b.natAbs))
  | (.big a, .big b, _) => .ok (.big (Int.gcd a b))
  | _ => .ub

/-- Truncation of a `long` to the `int` returned by a comparison function. -/
def toCInt (x : Int) : Int := Int.bmod x (2 ^ 32)

/-- Sign as returned by `mpz_cmp` / `mpq_cmp`. -/
def cmpSign {α : Type} [LT α] [DecidableLT α] (a b : α) : Int :=
  if a < b then -1 else if b < a then 1 else 0

/-- src/numbers.c:784  `rep_compare_numbers`; on exact numbers `number_cmp`
(src/numbers.c:817) is the same computation.  `promote` (line 485) is
`promote_dup` without the output cell. -/
def compare (x y : Num) : Int :=
  match promoteDup x y with
  | (.fix a, .fix b, _) => toCInt (a - b)
  | (.big a, .big b, _) => cmpSign a b
  | (.rat a, .rat b, _) => cmpSign a b
  | _ => 1

/-- src/numbers.c:1247  `number_foldv` (and 1293 `integer_foldv` with
`rep_INTEGERP`): note that a NULL result of `op` is passed on to the next call,
which dereferences it in its `rep_DECLARE1 (x, rep_NUMERICP)`.  `none` is the
state "sum is NULL" with the pending error `e`. -/
def foldArgs (ok? : Num → Bool) (op : Num → Num → Res Num) :
    Res Num → Nat → List Val → Res Num
  | r, _, [] => r
  | r, i, .other :: _ =>
      -- `rep_signal_arg_error`: if an error is pending already the first one stands
      match r with
      | .ok _ => .argError i
      | e => e
  | .ok s, i, .num n :: rest =>
      if ok? n then foldArgs ok? op (op s n) (i + 1) rest else .argError i
  | .ub, _, _ => .ub
  | e, _, .num n :: _ => if ok? n then .ub else e

/-- src/numbers.c:1247  `number_foldv`, 1293 `integer_foldv`. -/
def foldv (ok? : Num → Bool) (op : Num → Num → Res Num) : List Val → Res Num
  | [] => .missingArg 1
  | .other :: _ => .argError 1
  | .num n :: rest => if ok? n then foldArgs ok? op (.ok n) 2 rest else .argError 1

def anyNum : Num → Bool := fun _ => true

/-- src/numbers.c:1799  `Fplus`. -/
def plus : List Val → Res Num
  | [] => .ok (makeInt 0)
  | args => foldv anyNum add args

/-- src/numbers.c:1812  `Fminus`. -/
def minus : List Val → Res Num
  | [] => .missingArg 1
  | [.num n] => neg n
  | [.other] => .argError 1
  | args => foldv anyNum sub args

/-- src/numbers.c:1828  `Fproduct`. -/
def product : List Val → Res Num
  | [] => .ok (makeInt 1)
  | args => foldv anyNum mul args

/-- src/numbers.c:1841  `Fdivide`. -/
def divide : List Val → Res Num
  | [] => .missingArg 1
  | [.num n] => div (.fix 1) n
  | [.other] => .argError 2
  | args => foldv anyNum div args

/-- src/numbers.c:1996  `Flogior`. -/
def logiorV : List Val → Res Num
  | [] => .ok (makeInt 0)
  | args => foldv anyNum logior args

/-- src/numbers.c:2009  `Flogxor`. -/
def logxorV (args : List Val) : Res Num := foldv anyNum logxor args

/-- src/numbers.c:2019  `Flogand`. -/
def logandV (args : List Val) : Res Num := foldv anyNum logand args

/-- src/numbers.c:2567  `Fgcd`. -/
def gcdV : List Val → Res Num
  | [] => .ok (makeInt 0)
  | [.num n] => if integerp n then gcd n n else .argError 1
  | [.other] => .argError 1
  | args => foldv integerp gcd args

/-- src/numbers.c:2080  `Fplus1`. -/
def plus1 (x : Num) : Res Num :=
  match x with
  | .fix a => (clong (a + 1)).bind fun t => .ok (makeLongInt t)
  | .big a => .ok (maybeDemote (.big (a + 1)))
  | .rat a => .ok (maybeDemote (.rat (a + 1)))

/-- src/numbers.c:2124  `Fsub1`. -/
def sub1 (x : Num) : Res Num :=
  match x with
  | .fix a => (clong (a - 1)).bind fun t => .ok (makeLongInt t)
  | .big a => .ok (maybeDemote (.big (a - 1)))
  | .rat a => .ok (maybeDemote (.rat (a - 1)))

/-- src/numbers.c:452  `coerce (…, rep_NUMBER_INT)` of an integer. -/
def coerceInt : Num → Int
  | .fix w => w
  | .big z => Int.bmod (mpzGetSi z) (2 ^ 62)
  | .rat _ => 0

/-- src/numbers.c:2202-2230  the bignum branch of `Fash`; `mpz_div_2exp` is the
flooring division `mpz_fdiv_q_2exp`. -/
def ashBig (a s : Int) : Num :=
  if s > 0 then maybeDemote (.big (a * 2 ^ s.toNat))
  else maybeDemote (.big (Int.fdiv a (2 ^ (-s).toNat)))

/-- src/numbers.c:2168  `Fash`.  Shifting a 64-bit word by 64 or more places, or
shifting bits out of it, is undefined in C.  `>>` of a negative `long long` is
arithmetic. -/
def ash (x s : Num) : Res Num :=
  if !integerp x then .argError 1
  else if !integerp s then .argError 2
  else
    let c := coerceInt s
    match x with
    | .fix a =>
        if c ≥ 62 then .ok (ashBig a c)
        else if c > 0 then (clong (a * 2 ^ c.toNat)).bind fun t => .ok (makeLonglongInt t)
        else if -c ≥ 64 then .ub
        else .ok (makeLonglongInt (Int.fdiv a (2 ^ (-c).toNat)))
    | .big a => .ok (ashBig a c)
    | .rat _ => .argError 1

/-- src/numbers.c:2512  `Fexpt` for an integer base and a fixnum exponent: the
result of `mpz_pow_ui` is returned as a bignum cell, without `maybe_demote`. -/
def expt (x e : Num) : Res Num :=
  match e with
  | .fix n =>
      match x with
      | .fix a | .big a =>
          if n < 0 then div (.fix 1) (.big (a ^ (-n).toNat)) else .ok (.big (a ^ n.toNat))
      | .rat _ => .ub
  | _ => .ub

/-- src/numbers.c:2029  `Feql` on exact numbers. -/
def eql (x y : Num) : Bool := compare x y == 0

/-- src/numbers.c:1732  `rep_number_max` on exact numbers (both branches of the
C code compare with the same function there). -/
def max2 (x y : Num) : Num := if compare x y ≥ 0 then x else y

/-- src/numbers.c:1747  `rep_number_min`. -/
def min2 (x y : Num) : Num := if compare x y ≤ 0 then x else y

/-- src/lispcmds.c:1642  `APPLY_COMPARISON` on exact numbers: with two fixnums
`rep_value_cmp` is called (src/values.c:161), which returns 0 for identical words
and otherwise calls `number_cmp`; with a non-fixnum, `rep_compare_numbers`. -/
def valueCmp (x y : Num) : Int := if x = y then 0 else compare x y

/-- src/lispcmds.c:1642  the loop over adjacent pairs. -/
def comparison (op : Int → Bool) : List Num → Res Bool
  | [] => .missingArg 1
  | [_] => .missingArg 2
  | a :: b :: rest => .ok (go (a :: b :: rest))
where
  go : List Num → Bool
    | a :: b :: rest => op (valueCmp a b) && go (b :: rest)
    | _ => true

/-- src/lispcmds.c:1658  `Fnum_eq`. -/
def numEq (l : List Num) : Res Bool := comparison (· == 0) l
/-- src/lispcmds.c:1683  `Fgtthan`. -/
def gtThan (l : List Num) : Res Bool := comparison (fun s => decide (s > 0)) l
/-- src/lispcmds.c:1695  `Fgethan`. -/
def geThan (l : List Num) : Res Bool := comparison (fun s => decide (s ≥ 0)) l
/-- src/lispcmds.c:1706  `Fltthan`. -/
def ltThan (l : List Num) : Res Bool := comparison (fun s => decide (s < 0)) l
/-- src/lispcmds.c:1717  `Flethan`. -/
def leThan (l : List Num) : Res Bool := comparison (fun s => decide (s ≤ 0)) l

end Rep.Number
