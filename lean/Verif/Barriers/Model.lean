/-
Barriers and continuations of src/continuations.c, and `dynamic-wind` of
lisp/rep/lang/interpreter.jl.

Modelled: the stack of barriers, `call-with-barrier`, `call/cc`, the search for a common
barrier, and the calls of the functions of the barriers when a continuation is invoked.

Simplified: a position in the C stack is a number that grows with each nested call; the
copy of the stack in a continuation is the list of its barriers; the depth of a barrier does
not overflow a `short`; the functions of the barriers return normally and do not invoke
continuations themselves; there are no threads.
-/

namespace Rep.Barriers

/-- src/continuations.c:170 `struct rep_barrier_struct`.  The number `id` is not in the code:
it is there to tell barriers apart that are at the same position at different times. -/
structure Barrier where
  id : Nat
  point : Nat
  closed : Bool
  deriving DecidableEq, Repr

/-- src/continuations.c:196 `struct rep_continuation_struct`: the barriers, innermost first,
and the absence of CF_INVALID. -/
structure Cont where
  chain : List Barrier
  valid : Bool
  deriving DecidableEq, Repr

/-- The barriers, the continuations made so far, the numbers of the barriers with the flag
`targeted`, the next number, and the passages through barriers: inwards (true) or outwards. -/
structure St where
  chain : List Barrier := []
  conts : List Cont := []
  targeted : List Nat := []
  next : Nat := 0
  log : List (Bool × Nat) := []
  deriving DecidableEq, Repr

inductive Ev where
  /-- a barrier is made at a position in the stack -/
  | enter (point : Nat) (closed : Bool)
  /-- the innermost barrier is left by returning -/
  | exit
  /-- call/cc -/
  | capture
  /-- a continuation is invoked -/
  | invoke (k : Nat)
  deriving DecidableEq, Repr

/-- The result of invoking a continuation: it worked, an error was signalled, or memory that
is no longer a barrier was used as one. -/
inductive Res where
  | ok (st : St)
  | refused
  | undef
  deriving DecidableEq, Repr

/-- The nearest closed barrier: `root_barrier` -/
def root (l : List Barrier) : Option Barrier := l.find? (·.closed)

/-- src/continuations.c:410 `trace_barriers`: up to the first closed one -/
def trace : List Barrier → List Barrier
  | [] => []
  | b :: bs => if b.closed then [b] else b :: trace bs

/-- src/continuations.c:435-441: the inner loop of `common_ancestor`, over what remains of
the history, from index `i`.  Whether the position of `p` was found, and `first_dest`. -/
def scan (p : Barrier) : List Barrier → Nat → Nat → Bool × Nat
  | [], _, first => (false, first)
  | d :: ds, i, first =>
      if d.point = p.point then (true, first)
      else if d.point > p.point then scan p ds (i + 1) (i + 1)
      else scan p ds (i + 1) first

/-- src/continuations.c:426 `common_ancestor` -/
def ancestor (dest : List Barrier) : List Barrier → Nat → Option Barrier
  | [], _ => none
  | p :: ps, first =>
      if (scan p (dest.drop first) first first).1 then some p
      else if p.closed then none
      else ancestor dest ps (scan p (dest.drop first) first first).2

/-- src/continuations.c:321-341, and (before) in `dynamic-wind`
(lisp/rep/lang/interpreter.jl:553).  The position must be inside that of the innermost
barrier. -/
def enter (st : St) (point : Nat) (closed : Bool) : St :=
  if (st.chain.head?.all fun b => b.point < point) then
    { st with
      chain := ⟨st.next, point, closed⟩ :: st.chain
      next := st.next + 1
      log := st.log ++ [(true, st.next)] }
  else st

/-- src/continuations.c:346-394, and (after) in `dynamic-wind`.  The continuations that need
a closed barrier are recognised by its address. -/
def exit (st : St) : St :=
  match st.chain with
  | [] => st
  | b :: bs =>
      { st with
        chain := bs
        conts :=
          if b.closed ∧ b.id ∈ st.targeted then
            st.conts.map fun c => if (root c.chain).map (·.point) = some b.point then { c with valid := false } else c
          else st.conts
        log := st.log ++ [(false, b.id)] }

/-- src/continuations.c:610-742 `primitive_call_cc`; an error without a root -/
def capture (st : St) : St :=
  (root st.chain).elim st fun r =>
    { st with conts := st.conts ++ [⟨st.chain, true⟩], targeted := r.id :: st.targeted }

/-- src/continuations.c:523-566 `primitive_invoke_continuation` and 644-682 in
`primitive_call_cc`, with the closed barrier of the continuation still there: the barriers
outside of it are those of the present stack. -/
def jump (st : St) (dest : List Barrier) (r a : Barrier) : St :=
  { st with
    chain := dest ++ (st.chain.dropWhile fun b => b.id ≠ r.id).drop 1
    log := st.log ++ (st.chain.takeWhile fun b => b.point ≠ a.point).map (fun b => (false, b.id))
      ++ ((dest.takeWhile fun b => b.point ≠ a.point).reverse).map fun b => (true, b.id) }

/-- src/continuations.c:571 `primitive-invoke-continuation` -/
def invoke (st : St) (k : Nat) : Res :=
  match st.conts[k]? with
  | none => .refused
  | some c =>
      if c.valid = false then .refused
      else
        match root c.chain with
        | none => .undef
        | some r =>
            if r ∈ st.chain then
              (ancestor (trace c.chain) st.chain 0).elim .refused fun a => .ok (jump st (trace c.chain) r a)
            else .undef

/-- src/continuations.c:592 `continuation-callable-p`; `none` if memory that is no longer a
barrier is used -/
def callable (st : St) (k : Nat) : Option Bool :=
  match st.conts[k]? with
  | none => some false
  | some c =>
      if c.valid = false then some false
      else
        match root c.chain with
        | none => none
        | some r =>
            if r ∈ st.chain then some (ancestor (trace c.chain) st.chain 0).isSome
            else none

/-- The state after an invocation. -/
def Res.after (st : St) : Res → Option St
  | .ok st' => some st'
  | .refused => some st
  | .undef => none

/-- A step; `none` if memory that is no longer a barrier is used. -/
def step (st : St) : Ev → Option St
  | .enter p c => some (enter st p c)
  | .exit => some (exit st)
  | .capture => some (capture st)
  | .invoke k => (invoke st k).after st

def run (st : St) : List Ev → Option St
  | [] => some st
  | e :: es => (step st e).bind fun st => run st es

end Rep.Barriers
