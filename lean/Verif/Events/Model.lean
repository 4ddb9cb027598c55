/-
The event loop: descriptors registered for input, pending marks, `select` and the
calls of the functions (src/unix_main.c).

Several loops may be active at once: a function called by one may enter another
(`recursive-edit`, `accept-process-output`, `sit-for` and so on), and other
threads run while one waits.  So the state has any number of loops, each of which
can make its next step at any time.
-/
import Mathlib.Data.List.Basic

namespace Rep.Events

/-- An `fd_set`. -/
abbrev FdSet := Nat → Bool

/-- `FD_SET`, `FD_CLR` (and assignments to `input_actions`). -/
def put {α : Type} (f : Nat → α) (fd : Nat) (v : α) : Nat → α :=
  fun x => if x = fd then v else f x

/-- The number of members below `FD_SETSIZE`. -/
def card (size : Nat) (s : FdSet) : Nat := (List.range size).countP s

/-- A descriptor had its turn in a loop, at a time (the number of events before it);
`callback` is the function that was called for it, if any. -/
structure Turn where
  fd : Nat
  time : Nat
  callback : Option Nat

/-- What is asked for: all descriptors (`rep_event_loop`), those with one of some
functions (`rep_accept_input_for_callbacks`), or some descriptors
(`rep_accept_input_for_fds`). -/
inductive Request
  | all
  | callbacks (cs : List Nat)
  | fds (l : List Nat)

/-- Where a loop is. -/
inductive Phase
  /-- in `wait_for_input`, at the call of `select` -/
  | waiting
  /-- in the `for` loop of `handle_input` -/
  | handling
  /-- in the function called by `handle_input` -/
  | calling
  deriving DecidableEq

/-- An active call of `wait_for_input` and `handle_input`. -/
structure Loop where
  id : Nat
  phase : Phase
  /-- the set `copy` of the caller -/
  inputs : FdSet
  /-- the variable `ready` -/
  ready : Int
  /-- the variable `i` of `handle_input` -/
  i : Nat
  /-- for the properties: when the loop was entered, when the set was reported, and the turns -/
  entered : Nat
  seen : Nat
  turns : List Turn

/-- A loop that has come to its end. -/
structure Done where
  loop : Loop
  interrupted : Bool

/-- The state: `input_fdset`, `input_actions`, `input_pending`,
`input_pending_count` (src/unix_main.c:261-275), whether `rep_INTERRUPTP`; the
descriptors on which there is input (the system's); the active loops. -/
structure St where
  fdset : FdSet := fun _ => false
  actions : Nat → Option Nat := fun _ => none
  pending : FdSet := fun _ => false
  count : Int := 0
  interrupt : Bool := false
  os : FdSet := fun _ => false
  loops : List Loop := []
  /-- undefined behaviour has happened -/
  ub : Bool := false
  /-- for the properties: number of events, number of loops so far, finished loops,
  and, for each descriptor, whether there has been input or a mark since its
  registration -/
  clock : Nat := 0
  ids : Nat := 0
  done : List Done := []
  fresh : FdSet := fun _ => false

/-- What can happen. -/
inductive Event
  | register (fd cb : Nat)
  | deregister (fd : Nat)
  | mark (fd : Nat)
  /-- input becomes available, or has been read -/
  | arrive (fd : Nat)
  | consume (fd : Nat)
  /-- an error or interrupt; it has been handled -/
  | interrupt
  | clear
  | enter (req : Request)
  /-- `select` of the loop with this number returns; `expired`: its timeout is over;
  `signal`: it returns -1 -/
  | select (id : Nat) (expired signal : Bool)
  | advance (id : Nat)
  | return (id : Nat)

/-- The loop of `wait_for_input` over the pending inputs
(src/unix_main.c:418-433); `n` is what is left of FD_SETSIZE, `out` is
uninitialised at first. -/
def scan (pending inputs : FdSet) (count : Int) :
    Nat → Nat → Int → FdSet → Int → FdSet × Int
  | 0, _, _, out, cnt => (out, cnt)
  | n + 1, i, seen, out, cnt =>
    if seen < count then
      if pending i then
        if inputs i then
          let out := if cnt = 0 then (fun _ => false) else out
          scan pending inputs count n (i + 1) (seen + 1) (put out i true) (cnt + 1)
        else scan pending inputs count n (i + 1) (seen + 1) out cnt
      else scan pending inputs count n (i + 1) seen out cnt
    else (out, cnt)

/-- The set that a loop waits for (src/unix_main.c:546; 591-607; 629-634). -/
def requested (st : St) : Request → FdSet
  | .all => st.fdset
  | .callbacks cs => fun fd => st.fdset fd && cs.any (fun c => st.actions fd = some c)
  | .fds l => fun fd => st.fdset fd && l.contains fd

/-- The beginning of `wait_for_input` (src/unix_main.c:414-439). -/
def enter (size : Nat) (garbage : FdSet) (st : St) (req : Request) : St :=
  let inputs := requested st req
  let r := if st.count > 0 then scan st.pending inputs st.count size 0 0 garbage 0
    else (garbage, 0)
  let l : Loop :=
    { id := st.ids, phase := if r.2 > 0 then .handling else .waiting,
      inputs := if r.2 > 0 then r.1 else inputs, ready := r.2, i := 0,
      entered := st.clock, seen := st.clock, turns := [] }
  { st with loops := l :: st.loops, ids := st.ids + 1 }

/-- `select` (src/unix_main.c:446-482): the descriptors of the set that have
input.  With none the loop goes on waiting (threads run meanwhile) until the
timeout is over; then, and if `select` was interrupted by a signal, nothing is
handled (src/unix_main.c:519-527; 608-613).  Simplification: idle actions and
the functions called periodically are left out. -/
def selectStep (size : Nat) (st : St) (l : Loop) (expired signal : Bool) : St × Option Loop :=
  let copy : FdSet := fun fd => decide (fd < size) && l.inputs fd && st.os fd
  let ready := card size copy
  if signal then (st, none)
  else if ready = 0 then if expired then (st, none) else (st, some l)
  else (st, some { l with phase := .handling, inputs := copy, ready := ready, seen := st.clock })

/-- One iteration of the loop of `handle_input` (src/unix_main.c:502-517), up to
the call of the function; or its end. -/
def advanceStep (size : Nat) (st : St) (l : Loop) : St × Option Loop :=
  if l.i < size ∧ l.ready > 0 ∧ st.interrupt = false then
    if l.inputs l.i then
      let st := if st.pending l.i then
          { st with pending := put st.pending l.i false, count := st.count - 1 } else st
      let t : Turn := ⟨l.i, st.clock, st.actions l.i⟩
      match st.actions l.i with
      | some _ => (st, some { l with ready := l.ready - 1, i := l.i + 1, phase := .calling,
                                      turns := l.turns ++ [t] })
      | none => (st, some { l with ready := l.ready - 1, i := l.i + 1,
                                   turns := l.turns ++ [t] })
    else (st, some { l with i := l.i + 1 })
  else ({ st with done := ⟨l, st.interrupt⟩ :: st.done }, none)

/-- Let the loop with this number make a step, if it is where the step belongs. -/
def stepLoop (st : St) (id : Nat) (p : Phase) (f : St → Loop → St × Option Loop) : St :=
  match st.loops.find? (fun l => l.id == id && l.phase == p) with
  | none => st
  | some l =>
    let r := f st l
    { r.1 with loops := r.1.loops.filterMap fun x => if x.id = id then r.2 else some x }

/-- `rep_register_input_fd` (src/unix_main.c:285-295). -/
def register (size : Nat) (st : St) (fd cb : Nat) : St :=
  if fd < size then
    { st with fdset := put st.fdset fd true, actions := put st.actions fd (some cb),
              fresh := put st.fresh fd (st.os fd) }
  else { st with ub := true }

/-- `rep_deregister_input_fd` (src/unix_main.c:297-305). -/
def deregister (size : Nat) (st : St) (fd : Nat) : St :=
  if fd < size then
    { st with fdset := put st.fdset fd false, actions := put st.actions fd none }
  else { st with ub := true }

/-- `rep_mark_input_pending` (src/unix_main.c:318-326). -/
def mark (size : Nat) (st : St) (fd : Nat) : St :=
  if fd < size then
    let st := { st with fresh := put st.fresh fd true }
    if st.pending fd then st
    else { st with pending := put st.pending fd true, count := st.count + 1 }
  else { st with ub := true }

/-- One event. -/
def step (size : Nat) (garbage : FdSet) (st : St) : Event → St
  | .register fd cb => register size st fd cb
  | .deregister fd => deregister size st fd
  | .mark fd => mark size st fd
  | .arrive fd => { st with os := put st.os fd true, fresh := put st.fresh fd true }
  | .consume fd => { st with os := put st.os fd false }
  | .interrupt => { st with interrupt := true }
  | .clear => { st with interrupt := false }
  | .enter req => enter size garbage st req
  | .select id expired signal =>
    stepLoop st id .waiting (fun st l => selectStep size st l expired signal)
  | .advance id => stepLoop st id .handling (fun st l => advanceStep size st l)
  | .return id => stepLoop st id .calling (fun st l => (st, some { l with phase := .handling }))

/-- A history, from the start. -/
def run (size : Nat) (garbage : FdSet) (evs : List Event) : St :=
  evs.foldl (fun st e => { step size garbage st e with clock := st.clock + 1 }) {}

end Rep.Events
