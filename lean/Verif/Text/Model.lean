/-
Comparing, completing and translating strings: `string-head-eq`, `string-equal`,
`string-lessp` (src/lispcmds.c), `complete-string` and `translate-string` (src/misc.c).
-/

namespace Rep.Text

/-- The memory a `char *` points to, up to the end of its object: the rest of the
string's bytes and the terminator. -/
abbrev Mem := List UInt8

/-- `rep_STR`: the bytes of a string and a zero. -/
def mem (s : List UInt8) : Mem := s ++ [0]

/-- What a function does: return a value, or read memory outside of a string. -/
inductive Out (α : Type)
  | ok (v : α)
  | ub
  deriving DecidableEq

def Out.map {α β} (f : α → β) : Out α → Out β
  | .ok v => .ok (f v)
  | .ub => .ub

/-- A `char`, which is signed, as an `int`. -/
def char (b : UInt8) : Int := if b.toNat < 128 then b.toNat else b.toNat - 256

/-- `Fstring_head_eq` (lispcmds.c:1585-1598). -/
def headEq : Mem → Mem → Out Bool
  | a :: s1, b :: s2 =>
    if a ≠ 0 ∧ b ≠ 0 then if a ≠ b then .ok false else headEq s1 s2
    else .ok (a ≠ 0 ∨ a = b)
  | _, _ => .ub

/-- `Fstring_equal` (lispcmds.c:1600-1620).  `up`: the C library's `toupper`, for the
locale. -/
def equal (up : Int → Int) : Mem → Mem → Out Bool
  | a :: s1, b :: s2 =>
    if a ≠ 0 ∧ b ≠ 0 then
      if up (char a) ≠ up (char b) then .ok false else equal up s1 s2
    else .ok (a = 0 ∧ b = 0)
  | _, _ => .ub

/-- `Fstring_lessp` (lispcmds.c:1622-1643). -/
def lessp (up : Int → Int) : Mem → Mem → Out Bool
  | a :: s1, b :: s2 =>
    if a ≠ 0 ∧ b ≠ 0 then
      if up (char a) ≠ up (char b) then .ok (up (char a) < up (char b)) else lessp up s1 s2
    else .ok (b ≠ 0)
  | _, _ => .ub

/-- Whether `strncmp`, or `strncasecmp`, of the first `n` bytes gives zero.  `low`
stands for the identity, or for the C library's `tolower`. -/
def same (low : UInt8 → UInt8) : Nat → Mem → Mem → Out Bool
  | 0, _, _ => .ok true
  | n + 1, a :: s1, b :: s2 =>
    if low a ≠ low b then .ok false
    else if a = 0 then .ok true
    else same low n s1 s2
  | _, _, _ => .ub

/-- How far the loop over `tmp2` and `tmp` goes (misc.c:190-199). -/
def common (low : UInt8 → UInt8) : Mem → Mem → Out Nat
  | a :: s1, b :: s2 =>
    if a ≠ 0 ∧ b ≠ 0 then
      if low a ≠ low b then .ok 0 else (common low s1 s2).map (· + 1)
    else .ok 0
  | _, _ => .ub

/-- `match + origlen`; a pointer beyond the end of the object. -/
def advance (n : Nat) (m : Mem) : Out Mem := if n < m.length then .ok (m.drop n) else .ub

/-- `strlen`. -/
def strlen : Mem → Nat
  | [] => 0
  | a :: s => if a = 0 then 0 else strlen s + 1

/-- The loop over the list (misc.c:174-212); the arguments that are not strings are
left out.  `m`: `match` and `matchlen`. -/
def loop (low : UInt8 → UInt8) (orig : List UInt8) :
    Option (List UInt8 × Nat) → List (List UInt8) → Out (Option (List UInt8 × Nat))
  | m, [] => .ok m
  | m, arg :: rest =>
    match same low orig.length (mem orig) (mem arg) with
    | .ub => .ub
    | .ok false => loop low orig m rest
    | .ok true =>
      match m with
      | none => loop low orig (some (arg, strlen (mem arg))) rest
      | some (found, len) =>
        match advance orig.length (mem found), advance orig.length (mem arg) with
        | .ok tmp2, .ok tmp =>
          match common low tmp2 tmp with
          | .ok k =>
            loop low orig (some (found, if orig.length + k < len then orig.length + k else len))
              rest
          | .ub => .ub
        | _, _ => .ub

/-- `Fcomplete_string` (misc.c:157-217). -/
def complete (low : UInt8 → UInt8) (template : List UInt8) (list : List (List UInt8)) :
    Out (Option (List UInt8)) :=
  (loop low template none list).map fun m => m.map fun p => p.1.take p.2

/-- The loop of `Ftranslate_string` (misc.c:431-436): both strings are in the heap;
`i` counts up to the length. -/
def transLoop (a t tablen : Nat) : Nat → Nat → List (List UInt8) → List (List UInt8)
  | 0, _, h => h
  | n + 1, i, h =>
    match h[a]?.bind (·[i]?) with
    | some c =>
      let new := if c.toNat < tablen then (h[t]?.bind (·[c.toNat]?)).getD 0 else c
      transLoop a t tablen n (i + 1) (h.modify a (·.set i new))
    | none => h

/-- `Ftranslate_string` (misc.c:412-440), for a string that is not a constant. -/
def translate (h : List (List UInt8)) (a t : Nat) : List (List UInt8) :=
  match h[a]?, h[t]? with
  | some s, some table => transLoop a t table.length s.length 0 h
  | _, _ => h

end Rep.Text
