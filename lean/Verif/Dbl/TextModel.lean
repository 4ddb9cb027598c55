import Verif.Dbl.Model
import Verif.NumText.Model

/-
Text of inexact numbers: `number->string` and `string->number` (src/numbers.c), in the C locale.

Of the C library, `printf` with `%.16g` and `strtod` are modelled as the C standard describes them, both correctly rounded.
Of `strtod`, hexadecimal numbers, `infinity` and `nan (...)` are left out, and letters are small except for `E`.
-/

namespace Rep.Dbl

open Rep.NumText (digitChar natDigits)

/-- `k` with exactly `p` decimal digits. -/
def digitsW : Nat → Nat → List Char
  | 0, _ => []
  | p + 1, k => digitsW p (k / 10) ++ [digitChar (k % 10)]

/-- `%g` leaves out zeros at the end of the fraction. -/
def strip (s : List Char) : List Char := (s.reverse.dropWhile (· == '0')).reverse

/-- The fraction, with its point unless it is empty. -/
def point (s : List Char) : List Char := if s = [] then [] else '.' :: s

/-- The digits and the exponent that `%e` would print: `k * 10 ^ (x - p + 1)` with `p` digits in `k`. -/
def sci (p : Nat) (q : ℚ) : Nat × Int :=
  let x := Int.log 10 |q|
  let k := (nearest (|q| / 10 ^ (x - p + 1))).toNat
  if k = 10 ^ p then (10 ^ (p - 1), x + 1) else (k, x)

/-- The exponent: a sign and at least two digits. -/
def expText (x : Int) : List Char :=
  'e' :: (if x < 0 then '-' else '+') :: ((if x.natAbs < 10 then ['0'] else []) ++ natDigits 10 x.natAbs)

/-- `%.{p}g` (C standard, 7.21.6.1) -/
def gText (p k : Nat) (x : Int) : List Char :=
  if x < -4 ∨ (p : Int) ≤ x then
    (digitsW p k).take 1 ++ point (strip ((digitsW p k).drop 1)) ++ expText x
  else if 0 ≤ x then
    (digitsW p k).take (x.toNat + 1) ++ point (strip ((digitsW p k).drop (x.toNat + 1)))
  else '0' :: point (strip (List.replicate (-x - 1).toNat '0' ++ digitsW p k))

/-- `%.{p}g` of a `double`. The sign of zero and of nan is left out. -/
def printG (p : Nat) : F64 → List Char
  | .nan => "nan".toList
  | .inf s => if s then "-inf".toList else "inf".toList
  | .fin q =>
    if q = 0 then ['0']
    else (if q < 0 then ['-'] else []) ++ gText p (sci p q).1 (sci p q).2

/-- src/numbers.c:1172-1191 `rep_print_number_to_string` for a floating point number, with the precision -1 that
`number->string` (src/numbers.c:2892) and `number_prin` (src/numbers.c:1197) pass. -/
def numberToString (d : F64) : List Char :=
  let buf := printG 16 d
  if '.' ∉ buf ∧ 'e' ∉ buf ∧ 'E' ∉ buf then buf ++ ['.'] else buf

def isDigit (c : Char) : Bool := decide (48 ≤ c.toNat) && decide (c.toNat ≤ 57)

/-- The value of digits. -/
def valD (s : List Char) : Nat := s.foldl (fun v c => v * 10 + (c.toNat - 48)) 0

/-- The exponent part of a number, if there is one. -/
def scanExp (s : List Char) : Int × List Char :=
  match s with
  | c :: t =>
    if c = 'e' ∨ c = 'E' then
      let neg : Bool := t.head? == some '-'
      let u := if neg || t.head? == some '+' then t.tail else t
      if u.takeWhile isDigit = [] then (0, s)
      else (if neg then -(valD (u.takeWhile isDigit) : Int) else (valD (u.takeWhile isDigit) : Int), u.dropWhile isDigit)
    else (0, s)
  | [] => (0, s)

/-- The digits after the point, if there is one. -/
def scanFrac (s : List Char) : List Char × List Char :=
  match s with
  | '.' :: t => (t.takeWhile isDigit, t.dropWhile isDigit)
  | _ => ([], s)

/-- A decimal number at the start of a text, and what follows it. -/
def scanDec (s : List Char) : Option (ℚ × List Char) :=
  let i := s.takeWhile isDigit
  let f := scanFrac (s.dropWhile isDigit)
  if i = [] ∧ f.1 = [] then none
  else
    let e := scanExp f.2
    some (valD (i ++ f.1) * 10 ^ (e.1 - f.1.length), e.2)

/-- `strtod` (C standard, 7.22.1.3): the number and what follows it; `none` when there is no number. -/
def strtod (s : List Char) : Option (F64 × List Char) :=
  let s := s.dropWhile Rep.NumText.isspace
  let neg : Bool := s.head? == some '-'
  let t := if neg || s.head? == some '+' then s.tail else s
  let r : Option (F64 × List Char) :=
    if "inf".toList.isPrefixOf t then some (.inf false, t.drop 3)
    else if "nan".toList.isPrefixOf t then some (.nan, t.drop 3)
    else (scanDec t).map fun r => (rne r.1, r.2)
  if neg then r.map fun r => (r.1.neg, r.2) else r

/-- src/numbers.c:2865-2881 `string->number` and 1077-1090 `rep_parse_number`, for texts without `#` and without NUL, shorter than 2^32, which are
taken to be inexact numbers. `none` is nil. -/
def stringToFloat (s : List Char) : Option F64 :=
  match Rep.NumText.parse s 10 with
  | .float =>
    match strtod (Rep.NumText.sign s).2 with
    | some (d, []) => some (if (Rep.NumText.sign s).1 then d.neg else d)
    | _ => none
  | _ => none

end Rep.Dbl
