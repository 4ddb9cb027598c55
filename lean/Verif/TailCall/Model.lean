/-
Memory of the virtual machine when it eliminates tail calls (src/lispmach.h): the stack of values and
the array of arguments change places or are allocated anew.  All memory is allocated by `alloca`, so
it is freed only when `vm` returns.  Simplified: elements are values of a type `V`; the top of the
stack is in memory (that is, CACHE_TOS is not defined); which instructions are executed is given as
a history of what they do to the stack and the arguments; OP_KEYWORD_ARG, which overwrites arguments,
is left out; of the stack of frames and the slots only the sizes are kept.
-/

namespace Rep.TailCall

variable {V : Type}

/-- Blocks of memory; `none` is an element that has not been written. -/
abbrev Mem (V : Type) := List (List (Option V))

/-- `alloca` of `n` elements. -/
def alloca (m : Mem V) (n : Nat) : Mem V × Nat := (m ++ [List.replicate n none], m.length)

/-- `p[i] = x`; `none`: outside of the block, or `p` is null. -/
def poke (m : Mem V) (p : Option Nat) (i : Nat) (x : V) : Option (Mem V) := do
  let b ← p
  let l ← m[b]?
  if i < l.length then some (m.set b (l.set i (some x))) else none

/-- `p[i]`; `none` also for an element that has not been written. -/
def peek (m : Mem V) (p : Option Nat) (i : Nat) : Option V := do
  let b ← p
  let l ← m[b]?
  let x ← l[i]?
  x

/-- `vm` (lispmach.h:513-622): `stack` with `v_stkreq`, `argv_base` with `argv_size`, `argv` (a block
and an offset) with `argc` and `argptr`, `stackp - stack`, `b_stkreq`, `s_stkreq`; `used` is the number
of elements that have been allocated since `vm` was called. -/
structure Vm (V : Type) where
  mem : Mem V
  stack : Option Nat
  vreq : Nat
  base : Option Nat
  bsize : Nat
  argv : Option Nat
  off : Nat
  argc : Nat
  argptr : Nat
  sp : Nat
  breq : Nat
  sreq : Nat
  used : Nat

/-- The sizes in a compiled function. -/
structure Req where
  v : Nat
  b : Nat
  s : Nat

/-- The label `again` (lispmach.h:576-602). -/
def again (t : V) (s : Vm V) : Option (Vm V) := do
  let m ← poke s.mem s.stack 0 t
  some { s with mem := m, sp := 0, argptr := 0 }

/-- `vm` up to that label (lispmach.h:513-574); the arguments are in memory of the caller, which is the
first block. -/
def start (t : V) (args : List V) (r : Req) : Option (Vm V) :=
  let (m, st) := alloca [args.map some] (r.v + 1)
  again t ⟨m, some st, r.v, none, 0, some 0, 0, args.length, 0, 0, r.b, r.s,
    (r.v + 1) + (r.b + 1) + r.s⟩

/-- PUSH (lispmach.h:180). -/
def push (x : V) (s : Vm V) : Option (Vm V) := do
  let m ← poke s.mem s.stack (s.sp + 1) x
  some { s with mem := m, sp := s.sp + 1 }

/-- OP_POP; below `stack` there is nothing. -/
def pop (s : Vm V) : Option (Vm V) := if s.sp = 0 then none else some { s with sp := s.sp - 1 }

/-- OP_OPTIONAL_ARG (lispmach.h:2053-2056), and OP_REQUIRED_ARG (2043-2051) if there is one. -/
def takeArg (nil : V) (s : Vm V) : Option (Vm V) :=
  if s.argptr < s.argc then do
    let x ← peek s.mem s.argv (s.off + s.argptr)
    push x { s with argptr := s.argptr + 1 }
  else push nil s

/-- The loop of OP_REST_ARG: the elements from `i`, `n` of them. -/
def peeks (m : Mem V) (p : Option Nat) (i : Nat) : Nat → Option (List V)
  | 0 => some []
  | n + 1 => do
    let x ← peek m p i
    let xs ← peeks m p (i + 1) n
    some (x :: xs)

/-- OP_REST_ARG (lispmach.h:2058-2069); `list` makes a list. -/
def takeRest (list : List V → V) (s : Vm V) : Option (Vm V) := do
  let xs ← peeks s.mem s.argv (s.off + s.argptr) (s.argc - s.argptr)
  push (list xs) { s with argptr := s.argc }

/-- The label `do_tail_recursion` (lispmach.h:794-822). -/
def doTail (t : V) (r : Req) (s : Vm V) : Option (Vm V) :=
  let s := if s.breq < r.b then { s with breq := r.b, used := s.used + (r.b + 1) } else s
  let s := if s.sreq < r.s then { s with sreq := r.s, used := s.used + r.s } else s
  again t s

/-- The part of OP_CALL that eliminates a tail call with `n` arguments (lispmach.h:753-792), after
`POPN (arg)` (line 618). -/
def tailCall (t : V) (n : Nat) (r : Req) (s : Vm V) : Option (Vm V) :=
  if s.sp < n then none
  else
    let s := { s with argv := s.stack, off := s.sp - n + 1, argc := n }
    let s := if r.v ≤ s.bsize then
        { s with stack := s.base, vreq := s.bsize, base := s.stack, bsize := s.vreq }
      else
        let (m, st) := alloca s.mem (r.v + 1)
        { s with mem := m, stack := some st, vreq := r.v, base := s.stack, bsize := s.vreq,
                 used := s.used + (r.v + 1) }
    doTail t r s

/-- The loop that copies the arguments (lispmach.h:1888-1892). -/
def pokes (m : Mem V) (p : Option Nat) (i : Nat) : List V → Option (Mem V)
  | [] => some m
  | x :: xs => do
    let m ← poke m p i x
    pokes m p (i + 1) xs

/-- The part of OP_APPLY that eliminates a tail call (lispmach.h:1874-1901). -/
def tailApply (t : V) (args : List V) (r : Req) (s : Vm V) : Option (Vm V) := do
  let n := args.length
  let s := if n ≤ s.bsize then { s with argv := s.base, off := 0 }
    else
      let (m, a) := alloca s.mem n
      { s with mem := m, argv := some a, off := 0, base := some a, bsize := n, used := s.used + n }
  let m ← pokes s.mem s.argv 0 args
  let s := { s with mem := m, argc := n }
  let s := if s.vreq < r.v then
      let (m, st) := alloca s.mem (r.v + 1)
      { s with mem := m, stack := some st, vreq := r.v, used := s.used + (r.v + 1) }
    else s
  doTail t r s

/-- What instructions do. -/
inductive Ev (V : Type)
  | push (x : V)
  | pop
  | arg
  | rest
  /-- a tail call through OP_CALL of a function with these sizes -/
  | call (n : Nat) (r : Req)
  /-- a tail call through OP_APPLY -/
  | apply (args : List V) (r : Req)

/-- The values of Lisp that are needed: t, nil and lists. -/
structure Lisp (V : Type) where
  t : V
  nil : V
  list : List V → V

def step (k : Lisp V) (s : Vm V) : Ev V → Option (Vm V)
  | .push x => push x s
  | .pop => pop s
  | .arg => takeArg k.nil s
  | .rest => takeRest k.list s
  | .call n r => tailCall k.t n r s
  | .apply args r => tailApply k.t args r s

def steps (k : Lisp V) (s : Vm V) : List (Ev V) → Option (Vm V)
  | [] => some s
  | e :: es => do
    let s ← step k s e
    steps k s es

/-- A call of `vm` with these arguments and sizes, and a history; `none`: memory is used that has not
been allocated or written. -/
def run (k : Lisp V) (args : List V) (r : Req) (es : List (Ev V)) : Option (Vm V) := do
  let s ← start k.t args r
  steps k s es

end Rep.TailCall
