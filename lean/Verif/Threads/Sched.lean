import Verif.Threads.Model

/-
The same scheduler with lists instead of links: the specification of the queues.  The model
with links (Verif.Threads.Model) is shown to do the same as this one, step by step, in
Verif.Threads.Refine; the properties are proved for this one and carried over.
-/

namespace Rep.Threads

/-- The dynamic root: `Com` and the two queues. -/
structure S where
  c : Com := {}
  run : List Tid := [0]
  susp : List Tid := []

/-- Change one thread. -/
def S.set (s : S) (t : Tid) (x : Th) : S := { s with c := s.c.set t x }

/-- Into a queue that is ordered by wake time, before the first thread that does not wake
earlier. -/
def insertBy (c : Com) (t : Tid) : List Tid → List Tid
  | [] => [t]
  | q :: l => if later (c.th t).runAt (c.th q).runAt then q :: insertBy c t l else t :: q :: l

/-- `enqueue_thread` -/
def S.enqueue (s : S) (t : Tid) : Res S :=
  if (s.c.th t).exited then .bad .abort
  else if (s.c.th t).susp then .ok { s with susp := insertBy s.c t s.susp }
  else .ok { s with run := s.run ++ [t] }

/-- `unlink_thread` -/
def S.unlink (s : S) (t : Tid) : S :=
  if (s.c.th t).susp then { s with susp := s.susp.erase t } else { s with run := s.run.erase t }

/-- `thread_wake` -/
def S.wake (s : S) (t : Tid) : Res S :=
  if (s.c.th t).susp = false ∨ (s.c.th t).exited = true then .bad .abort
  else ((s.unlink t).set t { s.c.th t with susp := false }).enqueue t

/-- `poll_threads`, and the loop of `thread_yield` -/
def S.wakeAll (test : Com → Tid → Bool) : List Tid → S → Bool → Res (S × Bool)
  | [], s, woke => .ok (s, woke)
  | t :: l, s, woke =>
    if test s.c t then (s.wake t).andThen fun s' => S.wakeAll test l s' true
    else S.wakeAll test l s woke

/-- The dynamic root is left. -/
def S.close (s : S) : S :=
  { c := { s.c with
      th := fun t => { s.c.th t with exited := true }
      active := none
      closed := true }
    run := [], susp := [] }

/-- `thread_invoke` -/
def S.invoke : Nat → S → Wk → Res S
  | 0, _, _ => .bad .hang
  | k + 1, s, z =>
    match s.run, s.susp with
    | t :: _, _ => .ok { s with c := ({ s.c with active := some t } : Com).resume t }
    | [], [] => .ok s.close
    | [], b :: l =>
      (S.wakeAll Com.pollTrue (b :: l) s false).andThen fun r =>
        if r.2 then S.invoke k r.1 z
        else (sleepUntil s.c (s.c.th b).runAt z).andThen fun c =>
          (S.wake { s with c := c } b).andThen fun s => S.invoke k s z

/-- `thread_delete` -/
def S.delete (s : S) (t : Tid) (z : Wk) : Res S :=
  let was := s.run.head?
  let s := s.unlink t
  let s := s.set t { s.c.th t with exited := true }
  if was = some t then s.invoke rounds z else .ok s

/-- `make_thread` -/
def S.make (s : S) (susp : Bool) : Res S :=
  S.enqueue { s with c := { s.c.set s.c.n { susp := susp } with n := s.c.n + 1 } } s.c.n

/-- The active thread goes to the end of the runnable queue. -/
def S.rotate (s : S) : S :=
  match s.run with
  | [] => s
  | t :: l => { s with run := l ++ [t] }

/-- `thread_yield` -/
def S.yield (s : S) (z : Wk) : Res S :=
  let q := s.rotate
  (S.wakeAll Com.due q.susp q false).andThen fun r =>
    if r.1.run.head? = s.run.head? then .ok r.1 else r.1.invoke rounds z

/-- `thread_suspend` -/
def S.suspend (s : S) (t : Tid) (ms : Nat) (poll : Option Tid) (call : Call) (z : Wk) : Res S :=
  if (s.c.th t).susp = true ∨ (s.c.th t).exited = true then .bad .abort
  else
    let s := s.unlink t
    let s := s.set t { s.c.th t with
      susp := true, runAt := wakeTime s.c.now ms, poll := poll, val := .nil, call := call }
    (s.enqueue t).andThen fun s => if s.c.active = some t then s.invoke rounds z else .ok s

/-- `thread-suspend` -/
def S.fsuspend (s : S) (a t : Tid) (ms : Option Int) (z : Wk) : Res S :=
  if t = a then
    ({ s with c := s.c.logged (.called t ms s.c.now) } : S).suspend t (suspendMsecs ms) none .suspend z
  else
    (s.suspend t (suspendMsecs ms) none (s.c.th t).call z).andThen fun s =>
      .ok (s.set t { s.c.th t with val := .null })

/-- `thread-wake` -/
def S.fwake (s : S) (t : Tid) : Res S :=
  (({ s with c := s.c.logged (.woken t) } : S).set t { s.c.th t with val := .t }).wake t

/-- A step while the thread `a` is active. -/
def S.stepBy (s : S) (a : Tid) : Ev → Res S
  | .tick now => .ok { s with c := { s.c with now := now } }
  | .make susp => s.make susp
  | .yield z => s.yield z
  | .suspend t ms z => if s.c.threadp t then s.fsuspend a t ms z else .ok s
  | .join t ms d z =>
    if t < s.c.n ∧ t ≠ a then
      ({ s with c := s.c.logged (.joined a t ms d s.c.now) } : S).suspend a (joinMsecs ms) (some t)
        (.join t d) z
    else .ok s
  | .wake t => if s.c.threadp t then s.fwake t else .ok s
  | .delete t z =>
    if s.c.threadp t then ({ s with c := s.c.logged (.gone t) } : S).delete t z else .ok s
  | .exit v z =>
    if a = 0 then ({ s with c := s.c.logged (.gone a) } : S).delete a z
    else
      (({ s with c := s.c.logged (.done a v) } : S).set a
        { s.c.th a with exited := true, val := v }).delete a z
  | .throw => .ok s.close

/-- A step. -/
def S.step (s : S) (e : Ev) : Res S := s.c.active.elim (.ok s) fun a => s.stepBy a e

/-- A history. -/
def S.runs (s : S) : List Ev → Res S
  | [] => .ok s
  | e :: es => (s.step e).andThen fun s => s.runs es

end Rep.Threads
