import Verif.Num.Model

/-
`random`: src/numbers.c:2918-3048.

Not modelled: the generators themselves. With GMP `mpz_urandomm` is a parameter; without it the numbers `rand` gives are.
-/

namespace Rep.Number

/-- The argument of `random`. -/
inductive RandArg where
  | missing
  | seed
  | num (n : Num)
  | other
deriving DecidableEq, Repr

/-- What `random` gives: `t` after seeding, or a number. -/
inductive RandVal where
  | t
  | num (n : Num)
deriving DecidableEq, Repr

/-- `random_new` with GMP (numbers.c:2947-2958); `urandomm` is `mpz_urandomm`. -/
def randomNew (urandomm : Int → Int) : Num → Num
  | .fix w => maybeDemote (.big (urandomm w))
  | .big z => maybeDemote (.big (urandomm z))
  | .rat q => .rat q

/-- The end of `Frandom` (numbers.c:3044-3047) -/
def randomLimit (urandomm : Int → Int) (limit : Num) : Res RandVal :=
  if compare limit (.fix 0) ≤ 0 then .argError 1 else .ok (.num (randomNew urandomm limit))

/-- `Frandom` (numbers.c:3019-3048) -/
def random (urandomm : Int → Int) : RandArg → Res RandVal
  | .seed => .ok .t
  | .missing => randomLimit urandomm (.fix maxInt)
  | .num (.rat _) => .argError 1
  | .num n => randomLimit urandomm n
  | .other => .argError 1

/-- The number of values of a draw of `rand`, `RAND_BITS` being 31 (numbers.c:2962-2975). -/
def randMax : Nat := 2 ^ 31

/-- Two draws made into one number (numbers.c:2994-3010): `rep_LISP_INT_BITS - 1` is 61, so there is no third. -/
def combine (r1 r2 : Nat) : Nat := (r1 <<< 31 ||| r2) &&& (2 ^ 61 - 1)

/-- The divisor (numbers.c:2992) -/
def randDivisor (limit : Nat) : Nat := (2 ^ 61 - 1) / limit

/-- The loop of `random_new` without GMP (numbers.c:2993-3012), over the pairs of draws; `none` when they are used up. -/
def randLoop (limit : Nat) : List (Nat × Nat) → Option Nat
  | [] => none
  | (r1, r2) :: l =>
    let val := combine r1 r2 / randDivisor limit
    if val ≥ limit then randLoop limit l else some val

end Rep.Number
