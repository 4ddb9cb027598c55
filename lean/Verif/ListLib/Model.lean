import Verif.Heap.Model

/-
Functions on lists that are written in Lisp (lisp/rep/data.jl, lisp/rep/util/misc.jl), as programs
on the cons heap of `Verif/Heap`.  Loops that need not end are `partial_fixpoint` functions into
`Option`; `none` means "does not return".
-/

namespace Rep.Lists

/-- The result of `position`: an index, or the symbol that `#f` reads as (lisp.c:1078). -/
inductive Pos where
  | index (n : Nat)
  | hashF
  deriving DecidableEq, Repr

/-- The Lisp value of the result; `hf` is the value of `#f`, a symbol of its own
(symbols.c:1473-1477). -/
def Pos.toValue (hf : V) : Pos → V
  | .index n => .atom n
  | .hashF => hf

/-- The loop of `position` (misc.jl:43-51); `same` is `(equal item ·)`. -/
def position.loop (h : Heap) (same : V → Bool) (slow l : V) (i : Nat) : Option Pos :=
  match l with
  | .cell a =>
      if same (h.car a) then some (.index i)
      else match h.cdr a with
        | .cell b =>
            if same (h.car b) then some (.index (i + 1))
            else if V.cell b = slow then some .hashF
            else position.loop h same (cdr h slow) (h.cdr b) (i + 2)
        | _ => some .hashF
  | _ => some .hashF
partial_fixpoint

/-- `position` (misc.jl:42-51). -/
def position (h : Heap) (same : V → Bool) (l : V) : Option Pos := position.loop h same l l 0

/-- `member-if` (data.jl:45-51). -/
def memberIf (h : Heap) (f : Fn) (l : V) : Option (Heap × V) :=
  if l = .nil then some (h, .nil)
  else
    let r := f h (car h l)
    if r.2 ≠ .nil then some (r.1, l) else memberIf r.1 f (cdr r.1 l)
partial_fixpoint

/-- `some` (misc.jl:81-84); `t` is an atom. -/
def someP (t : V) (h : Heap) (f : Fn) (l : V) : Option (Heap × V) :=
  if l = .nil then some (h, .nil)
  else
    let r := f h (car h l)
    if r.2 ≠ .nil then some (r.1, t) else someP t r.1 f (cdr r.1 l)
partial_fixpoint

/-- The loop of `remove-if` (data.jl:56-60). -/
def removeIf.loop (h : Heap) (f : Fn) (rest out : V) : Run :=
  if rest = .nil then nreverse h out
  else
    let r := f h (car h rest)
    if r.2 ≠ .nil then removeIf.loop r.1 f (cdr r.1 rest) out
    else
      let c := cons r.1 (car r.1 rest) out
      removeIf.loop c.1 f (cdr c.1 rest) c.2
partial_fixpoint

/-- `remove-if` (data.jl:53-60). -/
def removeIf (h : Heap) (f : Fn) (l : V) : Run := removeIf.loop h f l .nil

/-- The function `(lambda (x) (not (fun x)))` (data.jl:65); `t` is an atom. -/
def notFn (t : V) (f : Fn) : Fn := fun h v =>
  let r := f h v
  (r.1, if r.2 = .nil then t else .nil)

/-- `remove-if-not` (data.jl:62-65). -/
def removeIfNot (t : V) (h : Heap) (f : Fn) (l : V) : Run := removeIf h (notFn t f) l

/-- The function `(lambda (x) (same x elt))`, for a test without effects. -/
def testFn (t : V) (same : V → Bool) : Fn := fun h v => (h, if same v then t else .nil)

/-- `remove` (data.jl:67-69); `same x` is `(equal x elt)`. -/
def remove (t : V) (h : Heap) (same : V → Bool) (l : V) : Run := removeIf h (testFn t same) l

/-- `remq` (data.jl:71-73). -/
def remq (t : V) (h : Heap) (elt l : V) : Run := removeIf h (testFn t (fun x => decide (x = elt))) l

/-- The loop of `option-index` (misc.jl:76-79): an element is the option itself or a list that
starts with it.  The result nil is `none` inside. -/
def optionIndex.loop (h : Heap) (x : V) (i : Nat) (rest : V) : Option (Option Nat) :=
  if rest = .nil then some none
  else
    let key := if car h (car h rest) ≠ .nil then car h (car h rest) else car h rest
    if key = x then some (some i) else optionIndex.loop h x (i + 1) (cdr h rest)
partial_fixpoint

/-- `option-index` (misc.jl:75-79). -/
def optionIndex (h : Heap) (l x : V) : Option (Option Nat) := optionIndex.loop h x 0 l

/-- The loop of `vector->list` (data.jl:121-123), for a vector of the values `vec`.  `none` in the
result of `aref` cannot happen below the length. -/
def vectorToList.loop (h : Heap) (vec : List V) (i : Nat) (out : V) : Run :=
  if i = vec.length then nreverse h out
  else match vec[i]? with
    | some v =>
        let c := cons h v out
        vectorToList.loop c.1 vec (i + 1) c.2
    | none => some (h, .error (.badArg (.atom i) 2))
partial_fixpoint

/-- `vector->list` (data.jl:120-123). -/
def vectorToList (h : Heap) (vec : List V) : Run := vectorToList.loop h vec 0 .nil

/-- The loop of `mapconcat` on lists (string-util.jl:84-89), on strings: `f` is what the function
returns for each element; the fragments are in reverse order.  The list is a list of values:
walking it is as in `someP`. -/
def mapconcat.loop (f : V → List Nat) (sep : List Nat) : List V → List (List Nat) → List Nat
  | [], frags => frags.reverse.flatten
  | v :: rest, frags => mapconcat.loop f sep rest (f v :: sep :: frags)

/-- `mapconcat` (string-util.jl:78-100) of a list. -/
def mapconcat (f : V → List Nat) (l : List V) (sep : List Nat) : List Nat :=
  match l with
  | [] => []
  | v :: rest => mapconcat.loop f sep rest [f v]

/-- The loop of `mapconcat` on other sequences (string-util.jl:94-99); `elt` of an index below the
length is that element. -/
def mapconcatSeq.loop (f : V → List Nat) (sep : List Nat) (s : List V) (i : Nat)
    (frags : List (List Nat)) : Option (List Nat) :=
  if i = s.length then some frags.reverse.flatten
  else match s[i]? with
    | some v => mapconcatSeq.loop f sep s (i + 1) (f v :: sep :: frags)
    | none => none
partial_fixpoint

/-- `mapconcat` of a vector or string. -/
def mapconcatSeq (f : V → List Nat) (s : List V) (sep : List Nat) : Option (List Nat) :=
  if s.length = 0 then some []
  else match s[0]? with
    | some v => mapconcatSeq.loop f sep s 1 [f v]
    | none => none

end Rep.Lists
