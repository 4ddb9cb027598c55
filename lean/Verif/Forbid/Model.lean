import Mathlib.Logic.Function.Basic
import Mathlib.Data.List.Basic
/-!
# Preemption of threads

Models the preemption lock: `rep_MAY_YIELD`, `rep_FORBID`, `rep_PERMIT` (src/rep_lisp.h:857-865), `thread-forbid`, `thread-permit` (src/continuations.c:1830-1854),
saving and loading of the lock when threads are switched (:886-925), and `without-interrupts` (lisp/rep/threads/utils.jl:29-35).

Simplifications: the queue of threads is C26; here the thread that runs next is any thread. All threads have one root. Programs consist of calls, errors, handlers,
and `without-interrupts`; call/cc is left out.
-/
namespace Rep.Forbid

abbrev Tid := Nat

/-- What a thread does. `check` is the start of a call, where it may be preempted (src/lisp.c:1573, src/lispmach.h:2197); the flag tells whether the call belongs to the
FORMS of a `without-interrupts`. It has no effect. -/
inductive Act
  | forbid
  | permit
  | check (inside : Bool)
  | yield
  deriving DecidableEq

/-- Programs. -/
inductive Prog
  /-- a call -/
  | call
  /-- `(thread-yield)`, or a function that suspends the thread -/
  | yield
  /-- a call that signals an error, or throws -/
  | fail
  | seq (a b : Prog)
  /-- `condition-case` or `catch` around a program -/
  | handle (a : Prog)
  /-- `(without-interrupts A)`; the flag: the user interrupts when `(thread-forbid)` is about to be called (src/lisp.c:1559-1561). -/
  | without (interrupted : Bool) (a : Prog)

/-- What the thread does for a program, and whether it returns. utils.jl:31-35: the call of `thread-forbid` is made in the body of the `unwind-protect`. -/
def trace (inside : Bool) : Prog → List Act × Bool
  | .call => ([.check inside], true)
  | .yield => ([.check inside, .yield], true)
  | .fail => ([.check inside], false)
  | .seq a b =>
    let r := trace inside a
    if r.2 then
      let q := trace inside b
      (r.1 ++ q.1, q.2)
    else r
  | .handle a => ((trace inside a).1, true)
  | .without false a =>
    let r := trace true a
    (.check inside :: .forbid :: r.1 ++ [.check true, .permit], r.2)
  | .without true _ => ([.check inside, .permit], false)

/-- `rep_thread_lock`, the field `lock` of the threads, the thread that runs, and what the threads have still to do. -/
structure St where
  lock : Int := 0
  saved : Tid → Int := fun _ => 0
  active : Tid := 0
  todo : Tid → List Act

/-- continuations.c:916-922, 893: the lock is saved in the thread, and that of the next one is loaded. -/
def switch (s : St) (nx : Tid) : St :=
  let saved := Function.update s.saved s.active s.lock
  { s with saved := saved, lock := saved nx, active := nx }

/-- rep_lisp.h:857-861 `rep_MAY_YIELD` -/
def mayYield (s : St) (pending : Bool) (nx : Tid) : St := if pending && s.lock == 0 then switch s nx else s

/-- The next action of the thread that runs. `pending`: its time is over (`rep_pending_thread_yield`); `nx`: the thread that is next. A thread that is ready exits
(continuations.c:971-980). -/
def step (s : St) (pending : Bool) (nx : Tid) : St :=
  match s.todo s.active with
  | [] => switch s nx
  | a :: r =>
    let s := { s with todo := Function.update s.todo s.active r }
    match a with
    | .forbid => { s with lock := s.lock + 1 }
    | .permit => { s with lock := s.lock - 1 }
    | .check _ => mayYield s pending nx
    | .yield => switch s nx

/-- continuations.c:1839-1840, 1852-1853: the value of `thread-forbid` and `thread-permit` is whether preemption is blocked. -/
def blocked (s : St) : Bool := !(s.lock ≤ 0)

def run (s : St) : List (Bool × Tid) → St
  | [] => s
  | c :: cs => run (step s c.1 c.2) cs

/-- The threads begin their programs. -/
def start (ps : Tid → Prog) : St := { todo := fun t => (trace false (ps t)).1 }

end Rep.Forbid
