/-
The scheduler of src/continuations.c, with its two intrusive doubly linked lists.

Modelled: the threads of one dynamic root, the runnable and the suspended queue with their
`next` and `pred` links, `enqueue_thread`, `unlink_thread`, `thread_wake`, `poll_threads`,
`thread_invoke`, `thread_delete`, `make_thread`, `thread_yield`, `thread_suspend` and the
functions of rep.threads that call them.

Simplified: the continuation of a thread (its copied stack) is not there: what a thread does
is the sequence of the events that happen while it is the active one.  Only one dynamic root
is considered: no thread of it is passed to a function while another root is active.  A loop
over a linked list gives `hang` when it takes more steps than there are threads.  A failed
`assert` gives `abort`.  The clock is set by events, and it advances when the scheduler sleeps:
how long `select` takes is part of the event.
-/

namespace Rep.Threads

/-- A thread, numbered in the order of creation; 0 is the default thread. -/
abbrev Tid := Nat

/-- `struct timeval`; `long` is an integer, overflow is a case of its own. -/
structure TV where
  sec : Int
  usec : Int
  deriving DecidableEq, Repr

/-- src/continuations.c:268 `TV_LATER_P` -/
def later (a b : TV) : Bool :=
  decide (a.sec > b.sec) || (decide (a.sec = b.sec) && decide (a.usec > b.usec))

/-- `LONG_MAX`, that is `~0UL >> 1` -/
def longMax : Int := 9223372036854775807

/-- The contents of `exit_val`: `rep_NULL`, `nil`, `t` or another value. -/
inductive Val where
  | null
  | nil
  | t
  | other (n : Nat)
  deriving DecidableEq, Repr

/-- The function of rep.threads in which a thread gave up control, and that returns when the
thread runs again: none that looks at `exit_val`, `thread-suspend`, or `thread-join`, with the
thread joined and the default value. -/
inductive Call where
  | none
  | suspend
  | join (th : Tid) (dflt : Val)
  deriving DecidableEq, Repr

/-- src/continuations.c:244 `struct rep_thread_struct`, without its links.  `poll` is the
thread given to `thread_join_poller`, if there is a poll function. -/
structure Th where
  susp : Bool := false
  exited : Bool := false
  runAt : TV := ⟨0, 0⟩
  poll : Option Tid := none
  val : Val := .null
  call : Call := .none
  deriving DecidableEq, Repr

/-- What a user sees: a thread calls `thread-suspend` on itself with this timeout, at this
time; it calls `thread-join`; `thread-wake` is called on it; a call of `thread-suspend`
returns true (`true`: the timeout was reached) or false; a call of `thread-join` returns; the
function of a thread returns; a thread is deleted, or the default thread ends. -/
inductive Log where
  | called (t : Tid) (ms : Option Int) (at_ : TV)
  | joined (t th : Tid) (ms : Option Int) (dflt : Val) (at_ : TV)
  | woken (t : Tid)
  | ret (t : Tid) (timeout : Bool) (at_ : TV)
  | retJoin (t : Tid) (v : Val) (at_ : TV)
  | done (t : Tid) (v : Val)
  | gone (t : Tid)
  deriving DecidableEq, Repr

/-- What does not belong to the queues: the threads, how many there are, `active` of the root
barrier, the time, whether the dynamic root has been left, and the log, newest entry last. -/
structure Com where
  th : Tid → Th := fun _ => {}
  n : Nat := 1
  active : Option Tid := some 0
  now : TV := ⟨0, 0⟩
  closed : Bool := false
  log : List Log := []

/-- How a function can fail. -/
inductive Bad where
  | abort
  | ub
  | hang
  deriving DecidableEq, Repr

/-- The result of a function. -/
inductive Res (α : Type) where
  | ok (a : α)
  | bad (b : Bad)
  deriving DecidableEq, Repr

/-- Go on with the result. -/
def Res.andThen {α β} (r : Res α) (f : α → Res β) : Res β :=
  match r with
  | .ok a => f a
  | .bad b => .bad b

/-- Change one thread. -/
def Com.set (c : Com) (t : Tid) (x : Th) : Com :=
  { c with th := fun u => if u = t then x else c.th u }

/-- src/continuations.c:1636 `thread_join_poller` and the test of `poll` at 885 and 1095 -/
def Com.pollTrue (c : Com) (t : Tid) : Bool :=
  match (c.th t).poll with
  | none => false
  | some u => (c.th u).exited

/-- The test at src/continuations.c:1094: the time has come, or the poll function says so. -/
def Com.due (c : Com) (t : Tid) : Bool := later c.now (c.th t).runAt || c.pollTrue t

/-- The thread runs again: the function in which it gave up control looks at `exit_val` and
returns.  src/continuations.c:1623-1625 (`thread-suspend`), 1671-1677 (`thread-join`) -/
def Com.resume (c : Com) (t : Tid) : Com :=
  match (c.th t).call with
  | .none => c
  | .suspend =>
    { c.set t { c.th t with val := .null, call := .none } with
      log := c.log ++ [.ret t (decide ((c.th t).val = .nil)) c.now] }
  | .join u d =>
    { c.set t { c.th t with val := .null, call := .none } with
      log := c.log ++ [.retJoin t
        (if (c.th u).exited = true ∧ (c.th u).val ≠ .null then (c.th u).val else d) c.now] }

/-- src/continuations.c:1127-1143: the time at which a thread suspended now wakes. -/
def wakeTime (now : TV) (ms : Nat) : TV :=
  if ms = 0 then ⟨longMax, longMax⟩
  else
    let sec := now.sec + (ms / 1000 : Nat)
    let usec := now.usec + (ms % 1000 * 1000 : Nat)
    if usec > 1000000 then ⟨sec + usec / 1000000, usec % 1000000⟩ else ⟨sec, usec⟩

/-- A `long` passed as `unsigned long`: the parameter of `thread_suspend`. -/
def toULong (x : Int) : Nat := (x % 2 ^ 64).toNat

/-- src/continuations.c:1621: without MSECS the timeout is 1. -/
def suspendMsecs (ms : Option Int) : Nat := toULong (ms.getD 1)

/-- src/continuations.c:1670: without MSECS `rep_get_long_int` gives 0 (src/numbers.c:632). -/
def joinMsecs (ms : Option Int) : Nat := toULong (ms.getD 0)

/-- src/continuations.c:954-961: seconds and microseconds until the time `r`.  The loop runs
at most once, because both numbers of microseconds are at least 0 and that of the clock is
less than a million. -/
def delta (r now : TV) : Int × Int :=
  if r.usec - now.usec < 0 then (r.sec - now.sec - 1, r.usec - now.usec + 1000000)
  else (r.sec - now.sec, r.usec - now.usec)

/-- How `select` ends: it takes this many microseconds more than it was told, or a signal ends
it after this many microseconds. -/
inductive Wk where
  | late (us : Nat)
  | signal (us : Nat)
  deriving DecidableEq, Repr

/-- A time in microseconds. -/
def TV.us (t : TV) : Int := t.sec * 1000000 + t.usec

/-- The time this many microseconds later. -/
def TV.add (t : TV) (us : Int) : TV := ⟨(t.us + us) / 1000000, (t.us + us) % 1000000⟩

/-- The number of microseconds that `rep_sleep_for` tells `select` to sleep: src/unix_main.c:112.
The microseconds are cut to milliseconds (src/continuations.c:962). -/
def sleepUs (r now : TV) : Int :=
  ((delta r now).1 + (delta r now).2 / 1000 / 1000) * 1000000 + (delta r now).2 / 1000 % 1000 * 1000

/-- How long `select` sleeps. -/
def Wk.slept (z : Wk) (us : Int) : Int :=
  match z with
  | .late x => us + x
  | .signal x => min us x

/-- src/continuations.c:948-963 with src/unix_main.c:112 `rep_sleep_for`: sleep until the time
`r`.  The sum of the seconds can overflow. -/
def sleepUntil (c : Com) (r : TV) (z : Wk) : Res Com :=
  if later r c.now then
    if (delta r c.now).1 + (delta r c.now).2 / 1000 / 1000 > longMax then .bad .ub
    else .ok { c with now := c.now.add (z.slept (sleepUs r c.now)) }
  else .ok c

/-! ### The linked lists -/

/-- The dynamic root: `Com`, the links of the threads, and head and tail of both queues. -/
structure P where
  c : Com := {}
  next : Tid → Option Tid := fun _ => none
  pred : Tid → Option Tid := fun _ => none
  head : Option Tid := some 0
  tail : Option Tid := some 0
  shead : Option Tid := none
  stail : Option Tid := none

/-- `t->next = v` -/
def P.setNext (p : P) (t : Tid) (v : Option Tid) : P :=
  { p with next := fun u => if u = t then v else p.next u }

/-- `t->pred = v` -/
def P.setPred (p : P) (t : Tid) (v : Option Tid) : P :=
  { p with pred := fun u => if u = t then v else p.pred u }

/-- `if (q != 0) q->next = v` -/
def P.setNextOf (p : P) (q : Option Tid) (v : Option Tid) : P := q.elim p fun x => p.setNext x v

/-- `if (q != 0) q->pred = v` -/
def P.setPredOf (p : P) (q : Option Tid) (v : Option Tid) : P := q.elim p fun x => p.setPred x v

/-- Change one thread. -/
def P.set (p : P) (t : Tid) (x : Th) : P := { p with c := p.c.set t x }

/-- src/continuations.c:798-803: at the end of the runnable queue -/
def P.addRun (p : P) (t : Tid) : P :=
  let p := p.setPred t p.tail
  let p := p.setNextOf (p.pred t) (some t)
  let p := if p.head = none then { p with head := some t } else p
  { p with tail := some t }

/-- src/continuations.c:807-809: the first suspended thread that does not wake before `t` -/
def P.findPtr (p : P) (t : Tid) : Nat → Option Tid → Res (Option Tid)
  | _, none => .ok none
  | 0, some _ => .bad .hang
  | k + 1, some q =>
    if later (p.c.th t).runAt (p.c.th q).runAt then p.findPtr t k (p.next q) else .ok (some q)

/-- src/continuations.c:812-819: before another thread of the suspended queue -/
def P.addBefore (p : P) (t q : Tid) : P :=
  let p := p.setPred t (p.pred q)
  let p := if p.pred q = none then { p with shead := some t } else p.setNextOf (p.pred q) (some t)
  let p := p.setPred q (some t)
  p.setNext t (some q)

/-- src/continuations.c:823-828: at the end of the suspended queue -/
def P.addSusp (p : P) (t : Tid) : P :=
  let p := p.setPred t p.stail
  let p := p.setNextOf (p.pred t) (some t)
  let p := if p.shead = none then { p with shead := some t } else p
  { p with stail := some t }

/-- src/continuations.c:793 `enqueue_thread` -/
def P.enqueue (p : P) (t : Tid) : Res P :=
  if (p.c.th t).exited then .bad .abort
  else if (p.c.th t).susp then
    (p.findPtr t p.c.n p.shead).andThen fun ptr =>
      .ok (ptr.elim (p.addSusp t) fun q => p.addBefore t q)
  else .ok (p.addRun t)

/-- src/continuations.c:833 `unlink_thread` -/
def P.unlink (p : P) (t : Tid) : P :=
  let p := p.setNextOf (p.pred t) (p.next t)
  let p := p.setPredOf (p.next t) (p.pred t)
  let p :=
    if (p.c.th t).susp then
      let p := if p.shead = some t then { p with shead := p.next t } else p
      if p.stail = some t then { p with stail := p.pred t } else p
    else
      let p := if p.head = some t then { p with head := p.next t } else p
      if p.tail = some t then { p with tail := p.pred t } else p
  (p.setNext t none).setPred t none

/-- src/continuations.c:859 `thread_wake` -/
def P.wake (p : P) (t : Tid) : Res P :=
  if (p.c.th t).susp = false ∨ (p.c.th t).exited = true then .bad .abort
  else
    let p := p.unlink t
    (p.set t { p.c.th t with susp := false }).enqueue t

/-- The loops at src/continuations.c:881-891 and 1090-1099: wake the suspended threads for
which the test holds.  The result says whether there was one. -/
def P.wakeLoop (test : Com → Tid → Bool) : Nat → Option Tid → P → Bool → Res (P × Bool)
  | _, none, p, woke => .ok (p, woke)
  | 0, some _, _, _ => .bad .hang
  | k + 1, some t, p, woke =>
    if test p.c t then
      (p.wake t).andThen fun p' => P.wakeLoop test k (p.next t) p' true
    else P.wakeLoop test k (p.next t) p woke

/-- The barrier is left: src/continuations.c:379-387.  The queues are on its stack frame. -/
def P.close (p : P) : P :=
  { p with
    c := { p.c with
      th := fun t => { p.c.th t with exited := true }
      active := none
      closed := true }
    head := none, tail := none, shead := none, stail := none }

/-- src/continuations.c:907 `thread_invoke`; the first argument bounds the number of times
`again` is reached. -/
def P.invoke : Nat → P → Wk → Res P
  | 0, _, _ => .bad .hang
  | k + 1, p, z =>
    match p.head, p.shead with
    | some t, _ => .ok { p with c := ({ p.c with active := some t } : Com).resume t }
    | none, none => .ok p.close
    | none, some b =>
      (P.wakeLoop Com.pollTrue p.c.n (some b) p false).andThen fun r =>
        if r.2 then P.invoke k r.1 z
        else (sleepUntil p.c (p.c.th b).runAt z).andThen fun c =>
          (P.wake { p with c := c } b).andThen fun p => P.invoke k p z

/-- How often `again` can be reached: a thread has been woken when it is. -/
def rounds : Nat := 2

/-- src/continuations.c:970 `thread_delete` -/
def P.delete (p : P) (t : Tid) (z : Wk) : Res P :=
  let was := p.head
  let p := p.unlink t
  let p := p.set t { p.c.th t with exited := true }
  if was = some t then p.invoke rounds z else .ok p

/-- src/continuations.c:1026 `make_thread`: the new thread is put in its queue. -/
def P.make (p : P) (susp : Bool) : Res P :=
  P.enqueue { p with c := { p.c.set p.c.n { susp := susp } with n := p.c.n + 1 } } p.c.n

/-- src/continuations.c:1075-1085: the active thread goes to the end of the runnable queue -/
def P.rotate (p : P) : P :=
  match p.head with
  | none => p
  | some old =>
    if p.next old = none then p
    else
      let p := p.setNextOf (p.pred old) (p.next old)
      let p := p.setPredOf (p.next old) (p.pred old)
      let p := { p with head := p.next old }
      let p := p.setNext old none
      let p := p.setPred old p.tail
      let p := p.setNextOf (p.pred old) (some old)
      { p with tail := some old }

/-- src/continuations.c:1062 `thread_yield` -/
def P.yield (p : P) (z : Wk) : Res P :=
  let q := p.rotate
  (P.wakeLoop Com.due q.c.n q.shead q false).andThen fun r =>
    if r.1.head = p.head then .ok r.1 else r.1.invoke rounds z

/-- src/continuations.c:1115 `thread_suspend`; `call` is the function it is called from. -/
def P.suspend (p : P) (t : Tid) (ms : Nat) (poll : Option Tid) (call : Call) (z : Wk) : Res P :=
  if (p.c.th t).susp = true ∨ (p.c.th t).exited = true then .bad .abort
  else
    let p := p.unlink t
    let p := p.set t { p.c.th t with
      susp := true, runAt := wakeTime p.c.now ms, poll := poll, val := .nil, call := call }
    (p.enqueue t).andThen fun p => if p.c.active = some t then p.invoke rounds z else .ok p

/-- What happens.  The last argument says how `select` ends, if the active thread gives up
control and no other thread can run. -/
inductive Ev where
  /-- time passes -/
  | tick (now : TV)
  /-- (make-thread), or (make-suspended-thread) -/
  | make (susp : Bool)
  /-- (thread-yield), or the active thread is preempted -/
  | yield (z : Wk)
  /-- (thread-suspend THREAD MSECS) -/
  | suspend (t : Tid) (ms : Option Int) (z : Wk)
  /-- (thread-join THREAD MSECS DEFAULT-VALUE) -/
  | join (t : Tid) (ms : Option Int) (dflt : Val) (z : Wk)
  /-- (thread-wake THREAD) -/
  | wake (t : Tid)
  /-- (thread-delete THREAD) -/
  | delete (t : Tid) (z : Wk)
  /-- the function of the active thread returns this value -/
  | exit (v : Val) (z : Wk)
  /-- the function of the active thread is left by a throw that nobody catches -/
  | throw
  deriving DecidableEq, Repr

/-- Add to the log. -/
def Com.logged (c : Com) (l : Log) : Com := { c with log := c.log ++ [l] }

/-- `THREADP`: src/continuations.c:259 -/
def Com.threadp (c : Com) (t : Tid) : Bool := decide (t < c.n) && !(c.th t).exited

/-- src/continuations.c:1601 `Fthread_suspend`.  Another thread that is suspended loses its
`exit_val` at once. -/
def P.fsuspend (p : P) (a t : Tid) (ms : Option Int) (z : Wk) : Res P :=
  if t = a then
    ({ p with c := p.c.logged (.called t ms p.c.now) } : P).suspend t (suspendMsecs ms) none .suspend z
  else
    (p.suspend t (suspendMsecs ms) none (p.c.th t).call z).andThen fun p =>
      .ok (p.set t { p.c.th t with val := .null })

/-- src/continuations.c:1683 `Fthread_wake` -/
def P.fwake (p : P) (t : Tid) : Res P :=
  (({ p with c := p.c.logged (.woken t) } : P).set t { p.c.th t with val := .t }).wake t

/-- A step of the dynamic root while the thread `a` is active.  A function called on a thread
that has exited signals an error; so does `thread-join` on the thread itself. -/
def P.stepBy (p : P) (a : Tid) : Ev → Res P
  | .tick now => .ok { p with c := { p.c with now := now } }
  | .make susp => p.make susp
  | .yield z => p.yield z
  | .suspend t ms z => if p.c.threadp t then p.fsuspend a t ms z else .ok p
  | .join t ms d z =>
    if t < p.c.n ∧ t ≠ a then
      ({ p with c := p.c.logged (.joined a t ms d p.c.now) } : P).suspend a (joinMsecs ms) (some t)
        (.join t d) z
    else .ok p
  | .wake t => if p.c.threadp t then p.fwake t else .ok p
  | .delete t z =>
    if p.c.threadp t then ({ p with c := p.c.logged (.gone t) } : P).delete t z else .ok p
  | .exit v z =>
    -- src/continuations.c:1049-1053; the default thread leaves the barrier: 368
    if a = 0 then ({ p with c := p.c.logged (.gone a) } : P).delete a z
    else
      (({ p with c := p.c.logged (.done a v) } : P).set a
        { p.c.th a with exited := true, val := v }).delete a z
  | .throw => .ok p.close

/-- A step; nothing happens any more when the dynamic root has been left. -/
def P.step (p : P) (e : Ev) : Res P := p.c.active.elim (.ok p) fun a => p.stepBy a e

/-- A history. -/
def P.run (p : P) : List Ev → Res P
  | [] => .ok p
  | e :: es => (p.step e).andThen fun p => p.run es

/-- The members of a queue, from its head: the links are followed for as long as `k` allows. -/
def P.walk (p : P) : Nat → Option Tid → List Tid
  | _, none => []
  | 0, some t => [t]
  | k + 1, some t => t :: p.walk k (p.next t)

/-- The members of a queue, from its tail: src/continuations.c:1817-1820 `all-threads`. -/
def P.walkBack (p : P) : Nat → Option Tid → List Tid
  | _, none => []
  | 0, some t => [t]
  | k + 1, some t => t :: p.walkBack k (p.pred t)

end Rep.Threads
