/-
Text of exact numbers: `number->string` and `string->number` (src/numbers.c).
A string is a list of characters, each of which stands for one byte.
-/
import Verif.Num.Model

namespace Rep.NumText

open Rep.Number

/-! ### Printing -/

/-- The digits that `printf` and `mpz_get_str` (for a base of at most 36) write. -/
def digitChar (d : Nat) : Char := ("0123456789abcdefghijklmnopqrstuvwxyz".toList[d]?).getD '?'

/-- The digits of a natural number in a base, as `printf` and `mpz_get_str` write them. -/
def natDigits (r n : Nat) : List Char :=
  if h : 2 ≤ r ∧ r ≤ n then natDigits r (n / r) ++ [digitChar (n % r)] else [digitChar n]
termination_by n
decreasing_by exact Nat.div_lt_self (by omega) (by omega)

/-- `mpz_get_str`, or `%ld` of `printf` for base 10 -/
def intDigits (r : Nat) (z : Int) : List Char := if z < 0 then '-' :: natDigits r z.natAbs else natDigits r z.natAbs

/-- src/numbers.c:1097 `rep_print_number_to_string`, which `number->string` (src/numbers.c:2892)
calls, for a radix from 2 to 36.  `%lx` and `%lo` convert their argument to unsigned. -/
def numberToString (n : Num) (r : Nat) : List Char :=
  match n with
  | .fix w =>
      if r = 10 then intDigits 10 w
      else if r = 16 then natDigits 16 (w % 2 ^ 64).toNat
      else if r = 8 then natDigits 8 (w % 2 ^ 64).toNat
      else intDigits r w
  | .big z => intDigits r z
  | .rat q => intDigits r q.num ++ '/' :: intDigits r q.den

/-! ### Parsing -/

/-- What `string->number` does. -/
inductive Out where
  | num (n : Num)
  | nil
  /-- a floating point number; not modelled -/
  | float
  /-- `abort ()` -/
  | abort
  /-- undefined behaviour -/
  | ub
  deriving DecidableEq

/-- `toupper` in the C locale, on codes -/
def toupper (n : Nat) : Nat := if 97 ≤ n ∧ n ≤ 122 then n - 32 else n

/-- src/numbers.c:855 `map`; `none` is -1 -/
def map : List (Option Nat) :=
  [some 0, some 1, some 2, some 3, some 4, some 5, some 6, some 7,
   some 8, some 9, none, none, none, none, none, none,
   none, some 10, some 11, some 12, some 13, some 14, some 15, some 16,
   some 17, some 18, some 19, some 20, some 21, some 22, some 23, some 24,
   some 25, some 26, some 27, some 28, some 29, some 30, some 31, some 32,
   some 33, some 34, some 35, some 36]

/-- src/numbers.c:956-960 and 967-973: the digit for a character, or a jump to `error`.
(Bytes above 127 are negative numbers.) -/
def cDigit (r : Nat) (c : Char) : Option Nat :=
  if r = 10 then (if c.toNat < 48 ∨ c.toNat > 57 then none else some (c.toNat - 48))
  else if c.toNat ≥ 128 ∨ toupper c.toNat < 48 ∨ toupper c.toNat - 48 ≥ 0x2c then none
  else
    match (map[toupper c.toNat - 48]?).getD none with
    | none => none
    | some d => if d ≥ r then none else some d

/-- What the loops at src/numbers.c:953-976 find. -/
inductive Loop where
  | value (v : Int)
  | bad
  | ub

/-- src/numbers.c:960 and 975 `value * radix + d`, on a `long`; `none` if it overflows -/
def longStep (v : Int) (r d : Nat) : Option Int :=
  if (-(2 ^ 63) ≤ v * r ∧ v * r < 2 ^ 63) ∧ (-(2 ^ 63) ≤ v * r + d ∧ v * r + d < 2 ^ 63) then some (v * r + d) else none

/-- src/numbers.c:953-976 the loops -/
def shortLoop (r : Nat) : List Char → Int → Loop
  | [], v => .value v
  | c :: s, v => (cDigit r c).elim .bad fun d => (longStep v r d).elim .ub fun v' => shortLoop r s v'

/-- `isspace` in the C locale -/
def isspace (c : Char) : Bool := c.toNat == 32 || (9 ≤ c.toNat && c.toNat ≤ 13)

/-- GMP's `digit_value` for a base of at most 36 -/
def gmpDigit (c : Char) : Option Nat :=
  if 48 ≤ c.toNat ∧ c.toNat ≤ 57 then some (c.toNat - 48)
  else if 65 ≤ c.toNat ∧ c.toNat ≤ 90 then some (c.toNat - 55)
  else if 97 ≤ c.toNat ∧ c.toNat ≤ 122 then some (c.toNat - 87)
  else none

/-- `mpz_set_str`: the digits, with white space left out. -/
def gmpDigits (r : Nat) : List Char → Nat → Option Nat
  | [], v => some v
  | c :: s, v =>
      if isspace c then gmpDigits r s v
      else
        match gmpDigit c with
        | none => none
        | some d => if d ≥ r then none else gmpDigits r s (v * r + d)

/-- `mpz_set_str` and `mpz_init_set_str` (GMP, mpz/set_str.c) for a base from 2 to 36:
leading white space, a minus sign, then at least one digit; white space between digits is
ignored. -/
def mpzSetStr (r : Nat) (s : List Char) : Option Int :=
  let s := (s.takeWhile (· ≠ '\x00')).dropWhile isspace
  let neg : Bool := s.head? == some '-'
  let s := if neg then s.tail else s
  match s with
  | [] => none
  | c :: _ =>
      match gmpDigit c with
      | none => none
      | some d =>
          if d ≥ r then none
          else (gmpDigits r (s.dropWhile fun c => c == '0' || isspace c) 0).map fun (v : Nat) => if neg then -(v : Int) else (v : Int)

/-- src/numbers.c:927-949, `unsigned int` arithmetic; `none` is the call of `abort`. -/
def bits (r len : Nat) : Option Nat :=
  match r with
  | 2 => some len
  | 8 => some (len * 3 % 2 ^ 32)
  | 10 => some (len * 27 % 2 ^ 32 / 8)
  | 16 => some (len * 4 % 2 ^ 32)
  | _ => none

/-- src/numbers.c:909 `rep_parse_number` for type 0; `len` is an `unsigned int`. -/
def parseInt (s : List Char) (r : Nat) (neg : Bool) : Out :=
  let len := s.length % 2 ^ 32
  if len = 0 then .nil
  else
    match bits r len with
    | none => .abort
    | some b =>
        if b < 62 then
          match shortLoop r (s.take len) 0 with
          | .value v => .num (if neg then makeInt (v * -1) else makeInt v)
          | .bad => .nil
          | .ub => .ub
        else
          match mpzSetStr r (s.take len) with
          | some z => .num (maybeDemote (.big (if neg then -z else z)))
          | none => .nil

/-- The string up to the first NUL, which is what `strchr` looks at. -/
def cString (s : List Char) : List Char := s.takeWhile (· ≠ '\x00')

/-- src/numbers.c:1043 `rep_parse_number` for type `rep_NUMBER_RATIONAL` -/
def parseRat (s : List Char) (r : Nat) (neg : Bool) : Out :=
  if s.length % 2 ^ 32 = 0 then .nil
  else
    match mpzSetStr r (s.takeWhile (· ≠ '/')), mpzSetStr r ((cString s).dropWhile (· ≠ '/')).tail with
    | some n, some d =>
        if d = 0 then .nil
        else .num (maybeDemote (.rat (if neg then -((n : Rat) / (d : Rat)) else (n : Rat) / (d : Rat))))
    | _, _ => .nil

/-- src/numbers.c:2831-2862: the prefixes; the rest, the radix and `force_exactness`.
`none` is the result nil. -/
def prefixes : List Char → Nat → Int → Option (List Char × Nat × Int)
  | '#' :: c :: rest, r, e =>
      if c = 'b' ∨ c = 'B' then prefixes rest 2 e
      else if c = 'o' ∨ c = 'O' then prefixes rest 8 e
      else if c = 'd' ∨ c = 'D' then prefixes rest 10 e
      else if c = 'x' ∨ c = 'X' then prefixes rest 16 e
      else if c = 'e' ∨ c = 'E' then prefixes rest r 1
      else if c = 'i' ∨ c = 'I' then prefixes rest r (-1)
      else none
  | ['#'], _, _ => none
  | s, r, e => some (s, r, e)

/-- src/numbers.c:2864-2869 the sign -/
def sign : List Char → Bool × List Char
  | '-' :: s => (true, s)
  | '+' :: s => (false, s)
  | s => (false, s)

/-- src/numbers.c:2871-2881 the type is chosen and the text parsed -/
def parse (s : List Char) (r : Nat) : Out :=
  let p := sign s
  if '/' ∈ cString p.2 then parseRat p.2 r p.1
  else if r = 10 ∧ ('.' ∈ cString p.2 ∨ 'e' ∈ cString p.2 ∨ 'E' ∈ cString p.2) then .float
  else parseInt p.2 r p.1

/-- src/numbers.c:2807 `string->number`, for a radix from 2 to 36.  (`inexact->exact` of
an exact number is that number.) -/
def stringToNumber (s : List Char) (r : Nat) : Out :=
  match prefixes s r 0 with
  | none => .nil
  | some (s, r, e) =>
      match parse s r with
      | .num n => if e < 0 then .float else .num n
      | x => x

end Rep.NumText
