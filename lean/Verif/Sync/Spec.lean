import Verif.Sync.Model

/-
The specification of mutexes, condition variables and message ports: three small machines that
read the log.  Each accepts or rejects; what it accepts is what the properties say.
-/

namespace Rep.Sync

/-- A mutex: who holds it, and who has asked for it and not got it yet, in the order of asking. -/
structure MS where
  hold : Option Tid := none
  q : List Tid := []

/-- `obtain-mutex` returns true, and only when nobody holds the mutex and the thread is the first
of those that asked; it does not return false.  `maybe-obtain-mutex` returns true if and only if
the thread holds the mutex, and false only if somebody holds it or has asked for it.
`release-mutex` takes effect if and only if the thread holds the mutex. -/
def MS.step (m : Mx) (x : MS) : Log → Option MS
  | .asked t k => if k = m then some { x with q := x.q ++ [t] } else some x
  | .got t k b =>
    if k = m then
      if b = true ∧ x.hold = none ∧ x.q.head? = some t then some { hold := some t, q := x.q.tail } else none
    else some x
  | .maybe t k b =>
    if k = m then
      if b = true then if x.hold = some t then some x else none
      else if x.hold = none ∧ x.q = [] then none else some x
    else some x
  | .rel t k => if k = m then if x.hold = some t then some { x with hold := none } else none else some x
  | .relErr t k => if k = m then if x.hold = some t then none else some x else some x
  | _ => some x

/-- What the machine is after a log; none if it rejects. -/
def MS.run (m : Mx) (l : List Log) : Option MS := l.foldl (fun o x => o.bind fun s => s.step m x) (some {})

/-- A condition variable: the threads that wait for it, the longest waiting first, and, while a
call of signal or broadcast is going on, the thread that called it and those it has to wake. -/
structure CS where
  q : List Tid := []
  busy : Option (Tid × List Tid) := none

/-- A signal has to wake the longest waiting thread, a broadcast all that are waiting.  A thread is
woken only while it is waiting, by a call that has to wake it.  The call returns when it has woken
them.  `condition-variable-wait` does not return false. -/
def CS.step (c : Cv) (x : CS) : Log → Option CS
  | .waits t k => if k = c then some { x with q := x.q ++ [t] } else some x
  | .waitRet _ k b => if k = c then if b = true then some x else none else some x
  | .sigCall t k =>
    if k = c then if x.busy = none then some { x with busy := some (t, x.q.take 1) } else none else some x
  | .bcCall t k =>
    if k = c then if x.busy = none then some { x with busy := some (t, x.q) } else none else some x
  | .woke t k u =>
    if k = c then
      match x.busy with
      | some (t', u' :: l) =>
        if t' = t ∧ u' = u ∧ x.q.head? = some u then some { q := x.q.tail, busy := some (t, l) } else none
      | _ => none
    else some x
  | .sigRet t k => if k = c then if x.busy = some (t, []) then some { x with busy := none } else none else some x
  | _ => some x

/-- What the machine is after a log; none if it rejects. -/
def CS.run (c : Cv) (l : List Log) : Option CS := l.foldl (fun o x => o.bind fun s => s.step c x) (some {})

/-- A port: the messages, the oldest first; the message a thread has called `message-send` with and
not put in the queue yet; the message a thread has taken and not returned yet. -/
structure PS where
  q : List Msg := []
  out : Tid → Option Msg := fun _ => none
  hand : Tid → Option Msg := fun _ => none

/-- `message-send` puts its message in the queue before it returns, once.  `message-fetch` takes the
first message of the queue, and returns it.  Neither signals an error, and `message-fetch` does not
return without a message. -/
def PS.step (p : Nat) (x : PS) : Log → Option PS
  | .sendCall t k v =>
    if k = p then
      if x.out t = none then some { x with out := fun u => if u = t then some v else x.out u } else none
    else some x
  | .sent t k v =>
    if k = p then
      if x.out t = some v then
        some { x with q := x.q ++ [v], out := fun u => if u = t then none else x.out u }
      else none
    else some x
  | .sendRet t k => if k = p then if x.out t = none then some x else none else some x
  | .sendErr _ k => if k = p then none else some x
  | .took t k v =>
    if k = p then
      if x.q.head? = some v ∧ x.hand t = none then
        some { x with q := x.q.tail, hand := fun u => if u = t then some v else x.hand u }
      else none
    else some x
  | .fetchRet t k r =>
    if k = p then
      if r ≠ none ∧ x.hand t = r then some { x with hand := fun u => if u = t then none else x.hand u }
      else none
    else some x
  | .fetchErr _ k => if k = p then none else some x
  | _ => some x

/-- What the machine is after a log; none if it rejects. -/
def PS.run (p : Nat) (l : List Log) : Option PS := l.foldl (fun o x => o.bind fun s => s.step p x) (some {})

/-- How condition variables have to be used.  Every condition variable goes with one mutex,
`f`; `condition-variable-wait` is called with that one, by the thread that owns it; signal and
broadcast are called by the thread that owns it. -/
def CallOk (f : Nat → Nat) (s : St) (t : Tid) : Op → Prop
  | .wait c m _ => m = f c ∧ (s.mx (.user m)).head? = some t
  | .signal c => (s.mx (.user (f c))).head? = some t
  | .broadcast c => (s.mx (.user (f c))).head? = some t
  | _ => True

/-- A history in which they are used like that, and no time of a suspended thread is over. -/
def EvOk (f : Nat → Nat) (s : St) : Ev → Prop
  | .call t o => (s.th t).pc = .idle → CallOk f s t o
  | .run _ => True
  | .timeout t => (s.th t).st ≠ .susp false

def OkRun (f : Nat → Nat) (s : St) : List Ev → Prop
  | [] => True
  | e :: es => EvOk f s e ∧ ∀ s', s.step e = some s' → OkRun f s' es

end Rep.Sync
