/-
The timers of src/timers.c.

Modelled: the chain of pending timers with relative times, the interval timer of the kernel,
the signal handler, the pipe, the input handler that calls the functions, and `make-timer`,
`set-timer` and `delete-timer`.  Time is counted in milliseconds.

Simplified: a timer is a number; the numbers of seconds and milliseconds are integers (the
`long` arithmetic does not overflow); `setitimer` is there (otherwise whole seconds would be
used); signals are blocked only inside these functions, which take no time.  A function that
is called may do anything: in the model other events happen between the call and the next one.
-/

namespace Rep.Timers

/-- A timer object: src/timers.c:60.  `deleted` is as in the code; the fields that are only
used in the chain are in `Entry`. -/
structure Timer where
  secs : Int
  msecs : Int
  deleted : Bool

/-- A member of `timer_chain`, with `rel_secs`, `rel_msecs` and `fired`: src/timers.c:60 -/
structure Entry where
  id : Nat
  secs : Int
  msecs : Int
  fired : Bool
  deriving DecidableEq, Repr

/-- What happens. -/
inductive Ev where
  /-- (make-timer FUNCTION SECS MSECS), which makes the timer with this number -/
  | make (id : Nat) (secs msecs : Int)
  /-- (set-timer TIMER [SECS MSECS]) -/
  | set (id : Nat) (time : Option (Int × Int))
  /-- (delete-timer TIMER) -/
  | delete (id : Nat)
  /-- a millisecond passes -/
  | tick
  /-- the event loop finds that the pipe can be read, and calls `timer_fd_handler` -/
  | dispatch
  /-- `timer_fd_handler` calls the next function -/
  | call
  /-- `timer_fd_handler` returns -/
  | ret
  deriving DecidableEq, Repr

/-- The state: the timer objects, `timer_chain`, the time at which the interval timer
expires, whether SIGALRM is caught (rather than ignored), the number of records in the pipe,
the arrays `timers` of the active calls of `timer_fd_handler`, innermost first, the calls of
functions that have been made, and the time. -/
structure St where
  timers : Nat → Option Timer := fun _ => none
  chain : List Entry := []
  alarm : Option Nat := none
  handler : Bool := false
  pipe : Nat := 0
  batches : List (List Nat) := []
  log : List (Nat × Nat) := []
  now : Nat := 0

/-- src/timers.c:127-131 -/
def fixLow (secs msecs : Int) : Int × Int :=
  if msecs < 0 then fixLow (secs - 1) (msecs + 1000) else (secs, msecs)
termination_by (-msecs).toNat
decreasing_by omega

/-- src/timers.c:132-136 -/
def fixHigh (secs msecs : Int) : Int × Int :=
  if msecs ≥ 1000 then fixHigh (secs + 1) (msecs - 1000) else (secs, msecs)
termination_by msecs.toNat
decreasing_by omega

/-- src/timers.c:124 `fix_time` -/
def fixTime (secs msecs : Int) : Int × Int := fixHigh (fixLow secs msecs).1 (fixLow secs msecs).2

/-- An entry with another relative time, after `fix_time`. -/
def Entry.retime (e : Entry) (secs msecs : Int) : Entry :=
  { e with secs := (fixTime secs msecs).1, msecs := (fixTime secs msecs).2 }

/-- src/timers.c:101 `setup_next_timer`.  `setitimer` fails if the number of seconds is
negative, and does nothing then. -/
def setup (st : St) : St :=
  if (st.chain.head?.any fun e => decide (e.secs > 0 ∨ e.msecs > 0)) then
    { st with
      alarm := st.chain.head?.elim st.alarm fun e => if e.secs < 0 then st.alarm else some (st.now + (e.secs * 1000 + e.msecs).toNat)
      handler := true }
  else { st with handler := false }

/-- src/timers.c:151-170: the loop that finds the place of the new entry `t` -/
def insertChain (t : Entry) : List Entry → List Entry
  | [] => [t]
  | x :: xs =>
      if x.secs < t.secs ∨ (x.secs = t.secs ∧ x.msecs ≤ t.msecs) then
        x :: insertChain (t.retime (t.secs - x.secs) (t.msecs - x.msecs)) xs
      else t :: x.retime (x.secs - t.secs) (x.msecs - t.msecs) :: xs

/-- Change the object. -/
def St.put (st : St) (id : Nat) (t : Timer) : St := { st with timers := fun j => if j = id then some t else st.timers j }

/-- src/timers.c:139 `insert_timer` -/
def insertTimer (st : St) (id : Nat) (t : Timer) : St :=
  if t.secs > 0 ∨ t.msecs > 0 then
    let st := { st.put id { t with deleted := false } with chain := insertChain ⟨id, t.secs, t.msecs, false⟩ st.chain }
    if (st.chain.head?.map (·.id)) = some id then setup st else st
  else st.put id t

/-- src/timers.c:190-195: the time of an entry is added to the next one -/
def addNext (x : Entry) : List Entry → List Entry
  | [] => []
  | y :: ys => y.retime (y.secs + x.secs) (y.msecs + x.msecs) :: ys

/-- src/timers.c:186-201: the entry is taken out -/
def deleteChain (id : Nat) : List Entry → List Entry
  | [] => []
  | x :: xs =>
      if x.id = id then addNext x xs else x :: deleteChain id xs

/-- src/timers.c:179 `delete_timer` -/
def deleteTimer (st : St) (id : Nat) (t : Timer) : St :=
  let head := st.chain.head?.map (·.id)
  let st := { st.put id { t with deleted := true } with chain := deleteChain id st.chain }
  if head = some id then setup st else st

/-- src/timers.c:90-94: the leading entries with relative time zero are marked -/
def markFired : List Entry → List Entry
  | [] => []
  | x :: xs => if x.secs = 0 ∧ x.msecs = 0 then { x with fired := true } :: markFired xs else x :: xs

/-- src/timers.c:83 `timer_signal_handler`; `none` if the assertion fails -/
def signal (st : St) : Option St :=
  match st.chain with
  | [] => none
  | x :: xs => some { st with chain := markFired ({ x with secs := 0, msecs := 0 } :: xs), pipe := st.pipe + 1 }

/-- A millisecond passes.  The interval timer may expire; the signal is caught or ignored. -/
def tick (st : St) : Option St :=
  if st.alarm = some (st.now + 1) then
    if st.handler then signal { st with now := st.now + 1, alarm := none }
    else some { st with now := st.now + 1, alarm := none }
  else some { st with now := st.now + 1 }

/-- src/timers.c:220-235 the first half of `timer_fd_handler`, called if something is in the
pipe -/
def dispatch (st : St) : St :=
  if st.pipe = 0 then st
  else
    setup { st with
      pipe := st.pipe - 1
      batches := (st.chain.takeWhile (·.fired)).map (·.id) :: st.batches
      chain := st.chain.dropWhile (·.fired) }

/-- Whether a timer object is marked as deleted. -/
def St.dead (st : St) (id : Nat) : Bool := (st.timers id).any (·.deleted)

/-- src/timers.c:238-242: the innermost loop goes on to the next timer that is not deleted,
and calls its function. -/
def call (st : St) : St :=
  match st.batches with
  | [] => st
  | b :: bs =>
      match b.dropWhile st.dead with
      | [] => { st with batches := [] :: bs }
      | id :: b => { st with batches := b :: bs, log := st.log ++ [(st.now, id)] }

/-- src/timers.c:243: the handler returns, if no call remains. -/
def ret (st : St) : St :=
  match st.batches with
  | [] => st
  | b :: bs => if b.all st.dead then { st with batches := bs } else st

/-- src/timers.c:249 `make-timer` (the number is new, or nothing happens), 286 `set-timer`,
273 `delete-timer` (if there is such a timer), and the other events; `none` if the assertion
in the signal handler fails. -/
def step (st : St) : Ev → Option St
  | .make id secs msecs =>
      some (if (st.timers id).isSome then st
        else insertTimer st id ⟨(fixTime secs msecs).1, (fixTime secs msecs).2, false⟩)
  | .set id time =>
      some ((st.timers id).elim st fun t =>
        insertTimer (deleteTimer st id t) id
          ⟨(time.elim t.secs fun p => (fixTime p.1 p.2).1), (time.elim t.msecs fun p => (fixTime p.1 p.2).2), true⟩)
  | .delete id => some ((st.timers id).elim st fun t => deleteTimer st id t)
  | .tick => tick st
  | .dispatch => some (dispatch st)
  | .call => some (call st)
  | .ret => some (ret st)

/-- A history of events. -/
def run (st : St) : List Ev → Option St
  | [] => some st
  | e :: es => (step st e).bind fun st => run st es

end Rep.Timers
