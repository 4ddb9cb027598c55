/-
Model of functions moved to a thread of their own (lisp/rep/threads/proxy.jl).

Simplifications: the operations of message ports are atomic and behave as lists (C25 is about this);
values and arguments are numbers; the function that was moved has a state of its own, which nothing
else changes, and takes effect when it returns; the threads that call are those of one dynamic root.
-/

namespace Rep.Proxy

/-- How the function ends: a value, an exception, or not at all because it calls its own proxy, which
waits for the thread that waits. -/
inductive Out where
  | value (v : Nat)
  | raise (e : Nat)
  | self
  deriving DecidableEq, Repr

/-- The function: new state and end. -/
abbrev Fn := Nat → Nat → Nat × Out

/-- Messages in `in-port` (proxy.jl:48-60): a call with the port for the result, or without. -/
inductive Msg where
  | sync (port arg : Nat)
  | async (arg : Nat)
  deriving DecidableEq, Repr

/-- The thread of the proxy: at `message-fetch`, in the function, in the function that waits for its
own proxy, ended. -/
inductive Worker where
  | idle
  | busy (m : Msg)
  | stuck
  | dead
  deriving DecidableEq, Repr

/-- What the programs see: the `n`-th message is sent, a call returns or raises in its thread.  The
exception nil is that of `(raise-exception (cdr nil))`, a bad argument. -/
inductive Seen where
  | sent (t : Nat) (arg : Nat) (sync : Bool)
  | ret (t : Nat) (n : Nat) (o : Out)
  | badArg (t : Nat) (n : Nat)
  deriving DecidableEq, Repr

structure State where
  inport : List Msg
  worker : Worker
  /-- the state of the function -/
  st : Nat
  /-- the messages in the ports for results; ports are numbered by the call -/
  ports : Nat → List (Bool × Nat)
  /-- the call that a thread waits for -/
  waits : Nat → Option Nat
  /-- the number of messages sent -/
  next : Nat
  /-- an exception left the dynamic root: no thread runs -/
  closed : Bool
  log : List Seen

def State.start (st : Nat) : State :=
  { inport := [], worker := .idle, st := st, ports := fun _ => [], waits := fun _ => none, next := 0, closed := false, log := [] }

/-- What can happen. -/
inductive Act where
  /-- thread `t` calls the proxy -/
  | call (t arg : Nat)
  /-- thread `t` calls `thread-proxy-async-call` -/
  | post (t arg : Nat)
  /-- `thread-proxy-delete` -/
  | delete
  /-- the thread of the proxy gets a message -/
  | fetch
  /-- the function ends -/
  | finish
  /-- thread `t` gets the result -/
  | get (t : Nat)
  /-- `message-fetch` of the proxy returns nil as its time is over -/
  | fetchTimeout
  /-- `message-fetch` of thread `t` returns nil -/
  | getTimeout (t : Nat)
  deriving DecidableEq, Repr

def set {α : Type} (f : Nat → α) (i : Nat) (x : α) : Nat → α := fun j => if j = i then x else f j

/-- The end of the function (proxy.jl:50-60): the result or the exception goes to the port; the
exception of an asynchronous call leaves the thread and, by `make_thread` (continuations.c:1056-1061),
the dynamic root. -/
def finish (F : Fn) (m : Msg) (s : State) : State :=
  match m, F s.st (match m with | .sync _ a => a | .async a => a) with
  | .sync p _, (st', .value v) => { s with st := st', worker := .idle, ports := set s.ports p (s.ports p ++ [(true, v)]) }
  | .sync p _, (st', .raise e) => { s with st := st', worker := .idle, ports := set s.ports p (s.ports p ++ [(false, e)]) }
  | .async _, (st', .value _) => { s with st := st', worker := .idle }
  | .async _, (st', .raise _) => { s with st := st', worker := .dead, closed := true }
  | _, (st', .self) => { s with st := st', worker := .stuck }

/-- `make-thread-proxy`, `thread-proxy-async-call`, `thread-proxy-delete` (proxy.jl:41-83). -/
def step (F : Fn) (s : State) (a : Act) : Option State :=
  if s.closed then none
  else match a with
    | .call t x =>
      if s.waits t = none then
        some { s with inport := s.inport ++ [.sync s.next x], waits := set s.waits t (some s.next), next := s.next + 1, log := s.log ++ [.sent t x true] }
      else none
    | .post t x =>
      if s.waits t = none then some { s with inport := s.inport ++ [.async x], next := s.next + 1, log := s.log ++ [.sent t x false] }
      else none
    | .delete => some { s with worker := .dead }
    | .fetch => match s.worker, s.inport with
      | .idle, m :: ms => some { s with inport := ms, worker := .busy m }
      | _, _ => none
    | .finish => match s.worker with
      | .busy m => some (finish F m s)
      | _ => none
    | .get t => match s.waits t with
      | none => none
      | some n => match s.ports n with
        | [] => none
        | (ok, v) :: rest =>
          some { s with ports := set s.ports n rest, waits := set s.waits t none, log := s.log ++ [.ret t n (if ok then .value v else .raise v)] }
    | .fetchTimeout => match s.worker, s.inport with
      | .idle, [] => some { s with worker := .dead, closed := true }
      | _, _ => none
    | .getTimeout t => match s.waits t with
      | none => none
      | some n => match s.ports n with
        | [] => some { s with waits := set s.waits t none, log := s.log ++ [.badArg t n] }
        | _ :: _ => none

def run (F : Fn) : State → List Act → Option State
  | s, [] => some s
  | s, a :: as => match step F s a with
    | none => none
    | some s' => run F s' as

end Rep.Proxy
