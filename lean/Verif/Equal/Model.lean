/-
Model of `equal` (src/values.c, src/symbols.c, src/numbers.c) and of the hash
functions (src/tables.c).
-/
import Verif.Num.Model

namespace Rep.Equal

open Rep.Number (Num compare toCInt makeInt)

/-- Lisp objects, as finite trees.  Numbers are exact (floats are not modelled).
`sym` carries the identity and the name of a symbol; `vec` is a vector or, if
`compiled`, a byte-code object; `datum` is an object of make-datum, with the identity
of its type ID and its value; `other` is any type whose comparison function is
`rep_ptr_cmp` (src/values.c:413), with its type code and identity. -/
inductive Obj where
  | num (n : Num)
  | str (s : List Nat)
  | sym (id : Nat) (name : List Nat)
  | cons (car cdr : Obj)
  | vec (compiled : Bool) (xs : List Obj)
  | datum (id : Nat) (value : Obj)
  | other (type id : Nat)

/-- `memcmp` of the first `MIN (len1, len2)` bytes; only the sign of the result is
specified by C. -/
def memcmp : List Nat → List Nat → Int
  | a :: as, b :: bs => if a < b then -1 else if b < a then 1 else memcmp as bs
  | _, _ => 0

/-- src/values.c:326 `string_cmp` on two strings; the `long` result is truncated to
`int`. -/
def stringCmp (s1 s2 : List Nat) : Int :=
  let tem := memcmp s1 s2
  if tem ≠ 0 then tem else toCInt ((s1.length : Int) - s2.length)

mutual
/-- src/values.c:162 `rep_value_cmp`, with `cons_cmp` (546), `vector_cmp` (633),
`string_cmp` (326), `rep_ptr_cmp` (413), `datum_cmp` (src/datums.c:50), `symbol_cmp` (src/symbols.c:129) and
`number_cmp` (src/numbers.c:818).  `same` is the test `v1 == v2` for the identity of
the two objects. -/
def valueCmp (same : Obj → Obj → Bool) : Obj → Obj → Int
  | .num a, .num b => if same (.num a) (.num b) then 0 else compare a b
  | .str a, .str b => if same (.str a) (.str b) then 0 else stringCmp a b
  | .sym i a, .sym j b => if same (.sym i a) (.sym j b) then 0 else if i = j then 0 else stringCmp a b
  | .cons a d, .cons a' d' =>
      if same (.cons a d) (.cons a' d') then 0
      else
        let rc := valueCmp same a a'
        if rc = 0 then valueCmp same d d' else rc
  | .vec c xs, .vec c' ys =>
      if same (.vec c xs) (.vec c' ys) then 0
      else if c = c' ∧ xs.length = ys.length then listCmp same xs ys
      else 1
  | .datum i v, .datum j w =>
      if same (.datum i v) (.datum j w) then 0 else if i = j then valueCmp same v w else 1
  | .other t i, .other t' j => if t = t' ∧ i = j then 0 else 1
  | _, _ => 1

/-- src/values.c:640 the loop of `vector_cmp`. -/
def listCmp (same : Obj → Obj → Bool) : List Obj → List Obj → Int
  | x :: xs, y :: ys =>
      let rc := valueCmp same x y
      if rc = 0 then listCmp same xs ys else rc
  | _, _ => 0
end

/-- src/lispcmds.c:1538 `equal`. -/
def equal (same : Obj → Obj → Bool) (a b : Obj) : Bool := valueCmp same a b == 0

/-! ### Hashing -/

/-- src/tables.c:61 `TRUNC`, on an unsigned 64-bit value. -/
def trunc (x : Int) : Int := x % 2 ^ 64 % 2 ^ 61

/-- `rep_MAKE_INT` of a C integer, as the number of the resulting fixnum. -/
def mkInt (x : Int) : Int := Int.bmod x (2 ^ 62)

/-- A `char`, which is signed. -/
def schar (c : Nat) : Int := if c < 128 then c else (c : Int) - 256

/-- src/tables.c:137 `hash_string`: up to the first zero byte. -/
def hashString (s : List Nat) : Int :=
  mkInt (trunc ((s.takeWhile (· ≠ 0)).foldl (fun value c => value * 33 + schar c) 0))

/-- src/tables.c:216-225: the `hash_value` of a number; for a rational the code
converts the double nearest to it to `unsigned long`, which is `ratHash` here. -/
def numHash (ratHash : Rat → Int) : Num → Int
  | .fix w => w
  | .big z => (z.natAbs % 2 ^ 64 : Nat)
  | .rat q => ratHash q

mutual
/-- src/tables.c:181 `equal-hash` with the depth argument `n` (an `int`);
`datumType` is the type code registered for datums. -/
def equalHash (ratHash : Rat → Int) (datumType : Nat) : Obj → Int → Int
  | .cons a d, n =>
      if n > 0 then
        let left := equalHash ratHash datumType a (n.tdiv 2)
        let right := equalHash ratHash datumType d (n.tdiv 2)
        mkInt (left * 2 + right)
      else mkInt 0
  | .vec _ xs, n => mkInt (trunc (vecHash ratHash datumType xs n n))
  | .str s, _ => hashString s
  | .sym _ name, _ => hashString name
  | .num v, _ => mkInt (trunc (numHash ratHash v))
  | .datum _ _, _ => mkInt (datumType * 255)
  | .other type _, _ => mkInt (type * 255)

/-- src/tables.c:203-209 the loop of `equal-hash` over the first `k` elements, from
the last of them to the first. -/
def vecHash (ratHash : Rat → Int) (datumType : Nat) : List Obj → Int → Int → Int
  | [], _, _ => 0
  | x :: xs, n, k =>
      if k > 0 then vecHash ratHash datumType xs n (k - 1) * 33 + equalHash ratHash datumType x (n.tdiv 2) else 0
end

end Rep.Equal
