/-
Mutexes, condition variables and message ports: lisp/rep/threads/mutex.jl,
condition-variable.jl and message-port.jl, with the queues of lisp/rep/data/queues.jl.

Modelled: every exported function of the three modules but the predicates, as a sequence of
atomic steps between which any other thread may run.  What is evaluated inside
`without-interrupts` is one step; otherwise every read and every write of a shared object is a
step of its own.  Any number of threads, mutexes, condition variables and ports.

Simplified: the scheduler (Verif.Threads) is replaced by what is known of it: any thread that is
not suspended may take the next step; a suspended thread runs again after `thread-wake`, and
then `thread-suspend` has returned false, or after its time is over, and then it has returned
true; `thread-wake` on a thread that is not suspended fails an assertion.  User programs do not
call `thread-wake`, `thread-suspend` and `thread-delete` on threads that are inside one of these
functions.  A list in a mutex or condition variable is a list of threads; that `delq` and
`nreverse` change it in place is not modelled.  A condition variable or mutex of a port is not
used other than by the port.
-/

namespace Rep.Sync

abbrev Tid := Nat
abbrev Msg := Nat

/-- A mutex made by `make-mutex`, or that of a port. -/
inductive Mx where
  | user (n : Nat)
  | port (n : Nat)
  deriving DecidableEq, Repr

/-- A condition variable made by `make-condition-variable`, or that of a port. -/
inductive Cv where
  | user (n : Nat)
  | port (n : Nat)
  deriving DecidableEq, Repr

/-- Where a thread is: the next atomic step.  The argument `to` is a timeout. -/
inductive Pc where
  /-- in the user's program -/
  | idle
  /-- before the body of `obtain-mutex` -/
  | obt (m : Mx) (to : Option Nat)
  /-- in the call of `thread-suspend` in `obtain-mutex` -/
  | obtd (m : Mx)
  /-- `release-mutex`: before the test of the owner, and before the body -/
  | relChk (m : Mx)
  | rel (m : Mx)
  /-- `condition-variable-wait`: before `memq`, before reading the list, before writing it, before
  the release and the call of `thread-suspend`, and in that call -/
  | waitMem (c : Cv) (m : Mx) (to : Option Nat)
  | waitRead (c : Cv) (m : Mx) (to : Option Nat)
  | waitWrite (c : Cv) (m : Mx) (to : Option Nat) (l : List Tid)
  | waitGo (c : Cv) (m : Mx) (to : Option Nat)
  | waited (c : Cv) (m : Mx)
  /-- `condition-variable-signal`: before the test, before `last`, before reading the list, before
  writing it, before `thread-wake` -/
  | sigChk (c : Cv)
  | sigLast (c : Cv)
  | sigRead (c : Cv) (u : Tid)
  | sigWrite (c : Cv) (u : Tid) (l : List Tid)
  | sigWake (c : Cv) (u : Tid)
  /-- `condition-variable-broadcast`: before reading the list, before clearing it, and with these
  threads still to be woken -/
  | bcRead (c : Cv)
  | bcClear (c : Cv) (l : List Tid)
  | bcWake (c : Cv) (l : List Tid)
  /-- `message-send`: before `enqueue` -/
  | enq (p : Nat) (v : Msg)
  /-- `message-fetch`: before `queue-empty-p`, before reading the first message, before removing it -/
  | emp (p : Nat) (to : Option Nat) (canWait : Bool)
  | deq (p : Nat)
  | deqW (p : Nat) (v : Msg)
  /-- `message-waiting-p`: before `queue-empty-p` -/
  | chk (p : Nat)
  deriving DecidableEq, Repr

/-- What a function returns to. -/
inductive Fr where
  /-- `obtain-mutex` at the end of `condition-variable-wait`, which returns `acquired` -/
  | wait (c : Cv) (acquired : Bool)
  /-- in `message-fetch`: `obtain-mutex`, `condition-variable-wait`, `release-mutex` with the value
  to return, `release-mutex` after an error -/
  | fetch (p : Nat) (to : Option Nat)
  | fetchW (p : Nat) (to : Option Nat)
  | fetchEnd (p : Nat) (r : Option Msg)
  | fetchErr (p : Nat)
  /-- in `message-send` -/
  | send (p : Nat) (v : Msg)
  | sendSig (p : Nat)
  | sendEnd (p : Nat)
  /-- in `message-waiting-p` -/
  | query (p : Nat)
  | queryEnd (p : Nat) (b : Bool)
  deriving DecidableEq, Repr

/-- Whether a thread can run: it runs, it is suspended (forever, or until a time), or it can run
again because it was woken (`false`) or its time is over (`true`). -/
inductive Run where
  | run
  | susp (forever : Bool)
  | ready (timeout : Bool)
  deriving DecidableEq, Repr

structure Th where
  pc : Pc := .idle
  stk : List Fr := []
  st : Run := .run
  deriving DecidableEq, Repr

/-- What is seen: the calls and returns, and the moments at which they take effect. -/
inductive Log where
  /-- a call of `obtain-mutex` takes effect, and returns -/
  | asked (t : Tid) (m : Mx)
  | got (t : Tid) (m : Mx) (b : Bool)
  /-- `maybe-obtain-mutex` returns -/
  | maybe (t : Tid) (m : Mx) (b : Bool)
  /-- `release-mutex` takes effect, or signals an error -/
  | rel (t : Tid) (m : Mx)
  | relErr (t : Tid) (m : Mx)
  /-- a thread begins to wait for a condition variable; the call returns -/
  | waits (t : Tid) (c : Cv)
  | waitRet (t : Tid) (c : Cv) (b : Bool)
  /-- `condition-variable-signal` and `-broadcast` are called, wake a thread, and return -/
  | sigCall (t : Tid) (c : Cv)
  | bcCall (t : Tid) (c : Cv)
  | woke (t : Tid) (c : Cv) (u : Tid)
  | sigRet (t : Tid) (c : Cv)
  /-- `message-send` is called, takes effect, returns, or signals an error -/
  | sendCall (t : Tid) (p : Nat) (v : Msg)
  | sent (t : Tid) (p : Nat) (v : Msg)
  | sendRet (t : Tid) (p : Nat)
  | sendErr (t : Tid) (p : Nat)
  /-- `message-fetch` is called, takes effect, returns, or signals an error -/
  | fetchCall (t : Tid) (p : Nat)
  | took (t : Tid) (p : Nat) (v : Msg)
  | fetchRet (t : Tid) (p : Nat) (r : Option Msg)
  | fetchErr (t : Tid) (p : Nat)
  /-- `message-waiting-p` returns -/
  | query (t : Tid) (p : Nat) (b : Bool)
  deriving DecidableEq, Repr

/-- The threads, the mutexes (the owner first), the condition variables (the newest first), the
queues of the ports, and the log, newest entry last. -/
structure St where
  th : Tid → Th := fun _ => {}
  mx : Mx → List Tid := fun _ => []
  cv : Cv → List Tid := fun _ => []
  pq : Nat → List Msg := fun _ => []
  log : List Log := []

/-- Change one thread. -/
def St.set (s : St) (t : Tid) (x : Th) : St :=
  { s with th := fun u => if u = t then x else s.th u }

/-- Change a mutex. -/
def St.setMx (s : St) (m : Mx) (l : List Tid) : St :=
  { s with mx := fun k => if k = m then l else s.mx k }

/-- Change a condition variable. -/
def St.setCv (s : St) (c : Cv) (l : List Tid) : St :=
  { s with cv := fun k => if k = c then l else s.cv k }

/-- Change the queue of a port. -/
def St.setPq (s : St) (p : Nat) (l : List Msg) : St :=
  { s with pq := fun k => if k = p then l else s.pq k }

/-- Add to the log. -/
def St.add (s : St) (l : Log) : St := { s with log := s.log ++ [l] }

/-- `thread-suspend` with this timeout waits forever: `Verif.Threads.suspendMsecs` is 0. -/
def forever (to : Option Nat) : Bool := decide (to = some 0)

/-- `thread-wake`; no result: the assertion fails. -/
def St.wake (s : St) (u : Tid) : Option St :=
  match (s.th u).st with
  | .susp _ => some (s.set u { s.th u with st := .ready false })
  | _ => none

/-- `thread-wake` on the first thread, if there is one -/
def St.wakeHead (s : St) : List Tid → Option St
  | [] => some s
  | u :: _ => s.wake u

/-- A function returns to what called it. -/
def St.ret (s : St) (t : Tid) (b : Bool) : List Fr → St
  | [] => s.set t {}
  -- lisp/rep/threads/condition-variable.jl:62
  | .wait c a :: k => (s.add (.waitRet t c a)).ret t a k
  -- lisp/rep/threads/message-port.jl:62-64
  | .fetch p to :: _ => s.set t { pc := .emp p to true }
  -- 67: again with the result of condition-variable-wait
  | .fetchW p to :: _ => s.set t { pc := .emp p to b }
  | .fetchEnd p r :: _ => (s.add (.fetchRet t p r)).set t {}
  | .fetchErr p :: _ => (s.add (.fetchErr t p)).set t {}
  -- 76-79
  | .send p v :: _ => s.set t { pc := .enq p v }
  -- 81: the cleanup form of unwind-protect
  | .sendSig p :: _ => s.set t { pc := .relChk (.port p), stk := [.sendEnd p] }
  | .sendEnd p :: _ => (s.add (.sendRet t p)).set t {}
  -- 53-55
  | .query p :: _ => s.set t { pc := .chk p }
  | .queryEnd p b :: _ => (s.add (.query t p b)).set t {}

/-- An error is signalled by a function called from here; the cleanup forms of unwind-protect are
evaluated. -/
def St.err (s : St) (t : Tid) : List Fr → St
  | [] => s.set t {}
  | .fetchW p _ :: _ => s.set t { pc := .relChk (.port p), stk := [.fetchErr p] }
  | .fetchEnd p _ :: _ => (s.add (.fetchErr t p)).set t {}
  | .fetchErr p :: _ => (s.add (.fetchErr t p)).set t {}
  | .sendSig p :: _ => s.set t { pc := .relChk (.port p), stk := [.sendEnd p] }
  | .sendEnd p :: _ => (s.add (.sendErr t p)).set t {}
  | _ :: _ => s.set t {}

/-- The next step of the thread `t`, which is at `x`. -/
def St.exec (s : St) (t : Tid) (x : Th) : Option St :=
  match x.pc with
  | .idle => some s
  -- lisp/rep/threads/mutex.jl:50-54, in without-interrupts
  | .obt m to =>
    if s.mx m = [] then some ((((s.add (.asked t m)).setMx m [t]).add (.got t m true)).ret t true x.stk)
    else some (((s.add (.asked t m)).setMx m (s.mx m ++ [t])).set t
      { pc := .obtd m, stk := x.stk, st := .susp (forever to) })
  -- mutex.jl:54: thread-suspend has returned
  | .obtd m => some ((s.add (.got t m (decide (x.st ≠ .ready true)))).ret t
      (decide (x.st ≠ .ready true)) x.stk)
  -- mutex.jl:68
  | .relChk m =>
    if (s.mx m).head? = some t then some (s.set t { x with pc := .rel m })
    else some ((s.add (.relErr t m)).err t x.stk)
  -- mutex.jl:70-76, in without-interrupts
  | .rel m =>
    (((s.add (.rel t m)).setMx m (s.mx m).tail).wakeHead (s.mx m).tail).map fun s' =>
      s'.ret t (decide ((s.mx m).tail = [])) x.stk
  -- condition-variable.jl:54
  | .waitMem c m to =>
    if t ∈ s.cv c then some (s.set t { x with pc := .waitGo c m to })
    else some (s.set t { x with pc := .waitRead c m to })
  -- 55
  | .waitRead c m to => some (s.set t { x with pc := .waitWrite c m to (s.cv c) })
  | .waitWrite c m to l => some ((s.setCv c (t :: l)).set t { x with pc := .waitGo c m to })
  -- 56-60, in without-interrupts: release-mutex, and thread-suspend
  | .waitGo c m to =>
    if (s.mx m).head? = some t then
      ((((s.add (.rel t m)).setMx m (s.mx m).tail).wakeHead (s.mx m).tail).map fun s' =>
        (s'.add (.waits t c)).set t { pc := .waited c m, stk := x.stk, st := .susp (forever to) })
    else some ((s.add (.relErr t m)).err t x.stk)
  -- 60-61
  | .waited c m => some (s.set t { pc := .obt m none, stk := .wait c (decide (x.st ≠ .ready true)) :: x.stk })
  -- 65
  | .sigChk c =>
    if s.cv c = [] then some ((s.add (.sigRet t c)).ret t false x.stk)
    else some (s.set t { x with pc := .sigLast c })
  -- 66
  | .sigLast c => some (s.set t { x with pc := .sigRead c ((s.cv c).getLastD 0) })
  -- 67
  | .sigRead c u => some (s.set t { x with pc := .sigWrite c u (s.cv c) })
  | .sigWrite c u l => some ((s.setCv c (l.filter (· ≠ u))).set t { x with pc := .sigWake c u })
  -- 68
  | .sigWake c u => (s.wake u).map fun s' => ((s'.add (.woke t c u)).add (.sigRet t c)).ret t true x.stk
  -- 71
  | .bcRead c => some (s.set t { x with pc := .bcClear c (s.cv c) })
  -- 72
  | .bcClear c l => some ((s.setCv c []).set t { x with pc := .bcWake c l.reverse })
  -- 74
  | .bcWake c [] => some ((s.add (.sigRet t c)).ret t true x.stk)
  | .bcWake c (u :: l) => (s.wake u).map fun s' =>
      (s'.add (.woke t c u)).set t { x with pc := .bcWake c l }
  -- message-port.jl:79-80, lisp/rep/data/queues.jl:52-62
  | .enq p v => some ((((s.add (.sent t p v)).setPq p (s.pq p ++ [v])).add (.sigCall t (.port p))).set t
      { pc := .sigChk (.port p), stk := [.sendSig p] })
  -- message-port.jl:65-71
  | .emp p to can =>
    if s.pq p = [] then
      if can then some (s.set t { pc := .waitMem (.port p) (.port p) to, stk := [.fetchW p to] })
      else some (s.set t { pc := .relChk (.port p), stk := [.fetchEnd p none] })
    else some (s.set t { pc := .deq p })
  -- queues.jl:64-69: an error if the queue is empty
  | .deq p =>
    if s.pq p = [] then some (s.set t { pc := .relChk (.port p), stk := [.fetchErr p] })
    else some (s.set t { pc := .deqW p ((s.pq p).headD 0) })
  -- queues.jl:69-75
  | .deqW p v => some (((s.add (.took t p v)).setPq p (s.pq p).tail).set t
      { pc := .relChk (.port p), stk := [.fetchEnd p (some v)] })
  -- message-port.jl:55-56
  | .chk p => some (s.set t { pc := .relChk (.port p), stk := [.queryEnd p (decide (s.pq p ≠ []))] })

/-- The functions a program calls. -/
inductive Op where
  | obtain (m : Nat) (to : Option Nat)
  | maybe (m : Nat)
  | release (m : Nat)
  | wait (c m : Nat) (to : Option Nat)
  | signal (c : Nat)
  | broadcast (c : Nat)
  | send (p : Nat) (v : Msg)
  | fetch (p : Nat) (to : Option Nat)
  | query (p : Nat)
  deriving DecidableEq, Repr

/-- The thread `t` calls a function. -/
def St.call (s : St) (t : Tid) : Op → St
  | .obtain m to => s.set t { pc := .obt (.user m) to }
  -- mutex.jl:59-63, in without-interrupts
  | .maybe m =>
    if s.mx (.user m) = [] then
      ((((s.add (.asked t (.user m))).setMx (.user m) [t]).add (.got t (.user m) true)).add
        (.maybe t (.user m) true))
    else s.add (.maybe t (.user m) false)
  | .release m => s.set t { pc := .relChk (.user m) }
  | .wait c m to => s.set t { pc := .waitMem (.user c) (.user m) to }
  | .signal c => (s.add (.sigCall t (.user c))).set t { pc := .sigChk (.user c) }
  | .broadcast c => (s.add (.bcCall t (.user c))).set t { pc := .bcRead (.user c) }
  -- message-port.jl:76
  | .send p v => (s.add (.sendCall t p v)).set t { pc := .obt (.port p) none, stk := [.send p v] }
  -- message-port.jl:62
  | .fetch p to => (s.add (.fetchCall t p)).set t { pc := .obt (.port p) none, stk := [.fetch p to] }
  -- message-port.jl:53
  | .query p => s.set t { pc := .obt (.port p) none, stk := [.query p] }

/-- What happens: a thread calls a function, takes the next step of one, or the time of a
suspended thread is over. -/
inductive Ev where
  | call (t : Tid) (o : Op)
  | run (t : Tid)
  | timeout (t : Tid)
  deriving DecidableEq, Repr

/-- A step; no result: an assertion fails.  An event that is not possible changes nothing. -/
def St.step (s : St) : Ev → Option St
  | .call t o => if (s.th t).pc = .idle then some (s.call t o) else some s
  | .run t => if (s.th t).st = .susp true ∨ (s.th t).st = .susp false then some s else s.exec t (s.th t)
  | .timeout t =>
    if (s.th t).st = .susp false then some (s.set t { s.th t with st := .ready true }) else some s

/-- A history. -/
def St.runs (s : St) : List Ev → Option St
  | [] => some s
  | e :: es => (s.step e).bind fun s' => s'.runs es

end Rep.Sync
