/-!
# Printing with `print-length` and `print-level`

Models `rep_lisp_prin` (src/lisp.c:2143-2213) for lists and vectors.

Simplifications: the text of anything that is neither a list nor a vector is given by the heap;
the user doesn't interrupt; the stream takes every character and neither prints anything itself
nor leaves the printing (what remains of `print_level` in such cases is the argument `lev`).
-/
namespace Rep.PrintLimit

abbrev Str := List Char

/-- The values that matter here (src/rep_lisp.h): the cells of lists, vectors, nil, everything
else by its text. -/
inductive Cell
  | nil
  | atom (s : Str)
  | cons (car cdr : Nat)
  | vec (l : List Nat)

/-- Addresses of cells; lists and vectors may contain themselves. -/
abbrev Heap := Nat → Cell

/-- The text of the empty list (src/symbols.c, the symbol `()`). -/
def nilText : Str := ['(', ')']

/-- src/lisp.c:2158, 2173, 2188: the three dots. -/
def dotsText : Str := ['.', '.', '.']

/-- src/lisp.c:2156, 2168, 2183: `tem && rep_INTP (tem) && count >= rep_INT (tem)`. A variable
without a value or whose value is no fixnum is `none`. -/
def reached (limit : Option Int) (count : Nat) : Bool :=
  match limit with
  | none => false
  | some n => decide (n ≤ count)

/-- src/lisp.c:2166, `rep_CONSP (rep_CDR (obj))`. -/
def isCons : Cell → Bool
  | .cons _ _ => true
  | _ => false

/-- src/lisp.c:2189, `rep_NILP (rep_CDR (obj))`. -/
def isNil : Cell → Bool
  | .nil => true
  | _ => false

mutual

/-- src/lisp.c:2144 `rep_lisp_prin` through src/values.c:190 `rep_print_val`. `len` and `lvl` are
the values of `print-length` and `print-level`, `lev` is the static `print_level`. The first
argument bounds the depth of recursion and the number of steps; `none` when that isn't enough. -/
def prin (h : Heap) (len lvl : Option Int) : Nat → Nat → Nat → Option Str
  | 0, _, _ => none
  | f + 1, lev, x =>
    match h x with
    | .nil => some nilText
    | .atom s => some s
    | .cons _ _ =>
      if reached lvl lev then some dotsText
      else do
        let s ← elems h len lvl f (lev + 1) 0 x
        some ('(' :: s ++ [')'])
    | .vec l => do
      let s ← items h len lvl f lev l
      some ('[' :: s ++ [']'])

/-- src/lisp.c:2164-2193: the elements of a list, `n` is `print_length`. -/
def elems (h : Heap) (len lvl : Option Int) : Nat → Nat → Nat → Nat → Option Str
  | 0, _, _, _ => none
  | f + 1, lev, n, x =>
    match h x with
    | .cons a d =>
      if isCons (h d) then
        if reached len n then some dotsText
        else do
          let s ← prin h len lvl f lev a
          let t ← elems h len lvl f lev (n + 1) d
          some (s ++ ' ' :: t)
      else if reached len n then some dotsText
      else do
        let s ← prin h len lvl f lev a
        if isNil (h d) then some s
        else do
          let t ← prin h len lvl f lev d
          some (s ++ ' ' :: '.' :: ' ' :: t)
    | _ => none

/-- src/lisp.c:2204-2211: the elements of a vector; neither limit is looked at. -/
def items (h : Heap) (len lvl : Option Int) : Nat → Nat → List Nat → Option Str
  | 0, _, _ => none
  | _ + 1, _, [] => some []
  | f + 1, lev, [x] => prin h len lvl f lev x
  | f + 1, lev, x :: y :: l => do
    let s ← prin h len lvl f lev x
    let t ← items h len lvl f lev (y :: l)
    some (s ++ ' ' :: t)

end

end Rep.PrintLimit
