/-
Subprocesses (src/unix_processes.c): the process objects, the chain of those whose function is to be
called, the handling of SIGCHLD, the reading of their output, and the garbage collector's sweep.

The state is changed by operations, one at a time, in any order: those of the children and of the
kernel, those of the C code (one round of a loop at a time) and those of Lisp.  Lisp code that is
called from the C code (functions of processes, functions as output streams) is therefore covered
too: it is a sequence of operations between two rounds.

Simplified: a child is known by its process object (the kernel does not reuse the number of a child
that has not been waited for, and the C code looks for the object with that number among the active
ones); a file descriptor is known by the object and the stream; connections are pipes with a separate
error stream, are not limited in size, and reading does not fail; output streams are not nil.
-/

namespace Rep.Proc

abbrev Id := Nat

inductive Status
  | dead
  | running
  | stopped
  deriving DecidableEq, Repr

/-- `PR_ACTIVE_P` (unix_processes.c:117). -/
def Status.active : Status → Bool
  | .dead => false
  | _ => true

/-- `struct Proc` (unix_processes.c:90-112).  `exit = none` is -1.  `sync` tells that `call-process` is
waiting for it. -/
structure Obj where
  status : Status
  exit : Option Nat
  /-- `pr_NotifyNext` -/
  next : Option Id
  out : Bool
  err : Bool
  sync : Bool
  deriving DecidableEq, Repr

/-- What `waitpid` reports. -/
inductive Report
  | stopped
  | exited (status : Nat)
  deriving DecidableEq, Repr

/-- A child, as the kernel sees it: is it alive, what is there to report, what is in its two pipes. -/
structure Kid where
  alive : Bool
  report : Option Report
  outPipe : List Nat
  errPipe : List Nat
  deriving DecidableEq, Repr

/-- What can be observed, in the order in which it happens. -/
inductive Obs
  /-- the state of the process has changed -/
  | change (p : Id) (s : Status)
  /-- the function of the process is called -/
  | call (p : Id) (s : Status)
  /-- the child writes, to its error stream or its output -/
  | wrote (p : Id) (err : Bool) (b : List Nat)
  /-- this much is written to the stream of the process object -/
  | data (p : Id) (err : Bool) (b : List Nat)
  /-- a new child is started -/
  | start (p : Id)
  /-- the child ends -/
  | ended (p : Id) (status : Nat)
  deriving DecidableEq, Repr

structure St where
  /-- `process_chain`, the objects that exist -/
  ids : List Id
  obj : Id → Obj
  kid : Id → Kid
  /-- `notify_chain` -/
  chain : Option Id
  /-- `process_run_count` -/
  count : Int
  /-- `got_sigchld` -/
  got : Bool
  /-- `check_for_zombies` is in its loop -/
  reaping : Bool
  /-- the next object to be made: objects have different names even when the memory is reused -/
  fresh : Id
  /-- the newest observation first -/
  log : List Obs

inductive Res (α : Type)
  | ok (a : α)
  /-- this cannot happen now -/
  | no
  /-- undefined behaviour, or an endless loop -/
  | crash

def setObj (s : St) (p : Id) (o : Obj) : St := { s with obj := fun q => if q = p then o else s.obj q }

def setKid (s : St) (p : Id) (k : Kid) : St := { s with kid := fun q => if q = p then k else s.kid q }

def see (s : St) (o : Obs) : St := { s with log := o :: s.log }

/-- `queue_notify` (unix_processes.c:203-211). -/
def queueNotify (s : St) (p : Id) : St :=
  if (s.obj p).next = none then
    { setObj s p { s.obj p with next := s.chain } with chain := some p }
  else s

/-- One round of `proc_notification` (unix_processes.c:219-226). -/
def dispatch (s : St) : Res St :=
  match s.chain with
  | none => .no
  | some p =>
    let s := { s with chain := (s.obj p).next }
    let s := setObj s p { s.obj p with next := none }
    .ok (see s (.call p (s.obj p).status))

/-- `read_from_one_fd` (unix_processes.c:331-366): everything that is in the pipe; if the child is
dead, the end of the file is reached and the descriptor is closed. -/
def readFd (s : St) (p : Id) (err : Bool) : St :=
  let k := s.kid p
  let b := if err then k.errPipe else k.outPipe
  let s := if b = [] then s else see s (.data p err b)
  let s := setKid s p (if err then { k with errPipe := [] } else { k with outPipe := [] })
  if k.alive then s
  else setObj s p (if err then { s.obj p with err := false } else { s.obj p with out := false })

/-- Is `pr_Stdout` or `pr_Stderr` open? -/
def St.isOpen (s : St) (p : Id) (err : Bool) : Bool := if err then (s.obj p).err else (s.obj p).out

/-- Reading a descriptor that is still open (unix_processes.c:289-292). -/
def readOpen (s : St) (p : Id) (err : Bool) : St :=
  if s.isOpen p err then readFd s p err else s

/-- The loop of `check_for_zombies` (unix_processes.c:261-313) when `waitpid` returns the child of the
object `p`. -/
def reap (s : St) (p : Id) : Res St :=
  if ¬ (s.reaping ∧ s.count > 0 ∧ p ∈ s.ids) then .no
  else match (s.kid p).report with
    | none => .no
    | some r =>
      let s := setKid s p { s.kid p with report := none }
      if ¬ (s.obj p).status.active then .ok s
      else match r with
        | .stopped =>
          let s := see (setObj s p { s.obj p with status := .stopped }) (.change p .stopped)
          .ok (queueNotify s p)
        | .exited st =>
          let s := setObj s p { s.obj p with exit := some st, status := .dead }
          let s := { s with count := s.count - 1 }
          let s := readOpen s p false
          let s := readOpen s p true
          -- `close_proc_files`
          let s := setObj s p { s.obj p with out := false, err := false }
          .ok (queueNotify (see s (.change p .dead)) p)

/-- Walk along the chain to the first object that is marked; `none`: the walk does not end. -/
def firstMarked (s : St) (marked : Id → Bool) : Nat → Option Id → Option (Option Id)
  | 0, _ => none
  | _ + 1, none => some none
  | n + 1, some p => if marked p then some (some p) else firstMarked s marked n (s.obj p).next

/-- `proc_sweep` (unix_processes.c:991-1027).  The first loop follows the link of a marked object after
having changed it: the first one gets the null pointer, and the loop ends there. -/
def sweep (s : St) (marked : Id → Bool) : Res St :=
  if s.chain = none then .ok { s with ids := s.ids.filter marked }
  else match firstMarked s marked (s.ids.length + 1) s.chain with
    | none => .crash
    | some none => .ok { s with chain := none, ids := s.ids.filter marked }
    | some (some p) =>
      .ok { setObj s p { s.obj p with next := none } with chain := some p, ids := s.ids.filter marked }

/-- The search of `notify_1` (unix_processes.c:243-246) from `ptr`, with the objects it has gone
through; `none`: it meets a null pointer. -/
def findLink (s : St) (p : Id) : Nat → Option Id → List Id → Option (List Id)
  | 0, _, _ => none
  | _ + 1, none, _ => none
  | n + 1, some q, l => if q = p then some l else findLink s p n (s.obj q).next (q :: l)

/-- `notify_1` (unix_processes.c:237-252). -/
def notify1 (s : St) (p : Id) : Res St :=
  if (s.obj p).next = none then .no
  else match findLink s p (s.ids.length + 1) s.chain [] with
    | none => .crash
    | some [] =>
      let s := { s with chain := (s.obj p).next }
      let s := setObj s p { s.obj p with next := none }
      .ok (see s (.call p (s.obj p).status))
    | some (q :: _) =>
      let s := setObj s q { s.obj q with next := (s.obj p).next }
      let s := setObj s p { s.obj p with next := none }
      .ok (see s (.call p (s.obj p).status))

inductive Op
  /-- the child of `p` writes -/
  | write (p : Id) (err : Bool) (b : List Nat)
  /-- it is stopped by a signal -/
  | halt (p : Id)
  /-- it ends -/
  | exit (p : Id) (status : Nat)
  /-- `make-process` -/
  | make
  /-- `start-process` -/
  | start (p : Id)
  /-- `continue-process` -/
  | resume (p : Id)
  /-- `close-process` -/
  | close (p : Id)
  /-- the event loop finds something to read -/
  | read (p : Id) (err : Bool)
  /-- `check_for_zombies` is called -/
  | zombies
  /-- one round of its loop -/
  | reap (p : Id)
  /-- the end of the loop -/
  | reaped
  /-- one round of `proc_notification` -/
  | dispatch
  /-- `accept-process-output-1` at its end -/
  | notify1 (p : Id)
  /-- `call-process` starts the child -/
  | call (p : Id)
  /-- and reads -/
  | callRead (p : Id) (err : Bool)
  /-- and has waited for it -/
  | called (p : Id) (status : Nat)
  /-- garbage collection; these objects are marked -/
  | gc (marked : Id → Bool)

/-- A child of `p` that can do something. -/
def St.live (s : St) (p : Id) : Bool :=
  decide (p ∈ s.ids) && (s.kid p).alive && (s.obj p).status.active

def step (s : St) : Op → Res St
  | .write p err b =>
    if s.live p then
      let k := s.kid p
      .ok (see (setKid s p (if err then { k with errPipe := k.errPipe ++ b }
        else { k with outPipe := k.outPipe ++ b })) (.wrote p err b))
    else .no
  | .halt p =>
    if s.live p then
      .ok { setKid s p { s.kid p with report := some .stopped } with got := true }
    else .no
  | .exit p st =>
    if s.live p then
      .ok (see { setKid s p { s.kid p with report := some (.exited st), alive := false } with got := true }
        (.ended p st))
    else .no
  -- unix_processes.c:1086-1122
  | .make => .ok { s with ids := s.fresh :: s.ids, fresh := s.fresh + 1 }
  -- `run_process` without `sync_input` (unix_processes.c:557-813)
  | .start p =>
    if p ∈ s.ids ∧ (s.obj p).status = .dead then
      let s := setKid s p ⟨true, none, [], []⟩
      let s := setObj s p { s.obj p with exit := none, status := .running, out := true, err := true }
      .ok (see { s with count := s.count + 1 } (.start p))
    else .no
  -- unix_processes.c:1378-1388; a report of the stop that has not been fetched is withdrawn
  | .resume p =>
    if p ∈ s.ids ∧ (s.obj p).status = .stopped then
      let s := if (s.kid p).report = some .stopped then setKid s p { s.kid p with report := none } else s
      let s := setObj s p { s.obj p with status := .running }
      .ok (queueNotify (see s (.change p .running)) p)
    else .no
  -- `close_proc_files` (unix_processes.c:184-200)
  | .close p =>
    if p ∈ s.ids then .ok (setObj s p { s.obj p with out := false, err := false }) else .no
  -- `read_from_process` (unix_processes.c:368-379)
  | .read p err =>
    if p ∈ s.ids ∧ (s.obj p).status.active ∧ !(s.obj p).sync ∧ s.isOpen p err then
      .ok (readFd s p err)
    else .no
  | .zombies => if s.got then .ok { s with got := false, reaping := true } else .no
  | .reap p => reap s p
  | .reaped =>
    if s.reaping ∧ (s.count ≤ 0 ∨ ∀ p ∈ s.ids, (s.kid p).report = none) then
      .ok { s with reaping := false }
    else .no
  | .dispatch => dispatch s
  | .notify1 p => if p ∈ s.ids then notify1 s p else .no
  -- `run_process` with `sync_input` (unix_processes.c:557-779, 814-953)
  | .call p =>
    if p ∈ s.ids ∧ (s.obj p).status = .dead then
      let s := setKid s p ⟨true, none, [], []⟩
      let s := setObj s p
        { s.obj p with exit := none, status := .running, out := true, err := true, sync := true }
      .ok (see s (.start p))
    else .no
  | .callRead p err =>
    if p ∈ s.ids ∧ (s.obj p).sync ∧ s.isOpen p err then
      .ok (readFd s p err)
    else .no
  -- both ends of file have been read; the child, if it has not been reaped already, is waited for
  | .called p st =>
    if p ∈ s.ids ∧ (s.obj p).sync ∧ ¬(s.obj p).out ∧ ¬(s.obj p).err ∧ ¬(s.kid p).alive then
      match (s.kid p).report with
      | some (.exited st') =>
        if st = st' then
          let s := setKid s p { s.kid p with report := none }
          let s := setObj s p { s.obj p with exit := some st, status := .dead, sync := false }
          .ok (queueNotify (see s (.change p .dead)) p)
        else .no
      | _ =>
        let s := setObj s p { s.obj p with status := .dead, sync := false }
        .ok (queueNotify (see s (.change p .dead)) p)
    else .no
  | .gc marked =>
    if ∀ p ∈ s.ids, (s.obj p).status.active → marked p then sweep s marked else .no

/-- The start: no process objects.  The fields are those of a new object. -/
def init : St :=
  ⟨[], fun _ => ⟨.dead, none, none, false, false, false⟩, fun _ => ⟨false, none, [], []⟩, none, 0,
    false, false, 0, []⟩

/-- A history: operations that happen one after the other. -/
inductive Run : St → List Op → St → Prop
  | nil (s) : Run s [] s
  | cons {s op s' ops s''} : step s op = .ok s' → Run s' ops s'' → Run s (op :: ops) s''

/-! ### What Lisp reads -/

/-- `process-exit-status` (unix_processes.c:1573-1580). -/
def exitStatus (o : Obj) : Option Nat := if o.status = .dead then o.exit else none

/-- `process-exit-value` (unix_processes.c:1593-1599), `WEXITSTATUS` being bits 8 to 15. -/
def exitValue (o : Obj) : Option Nat :=
  if o.status = .dead then o.exit.map fun st => st / 256 % 256 else none

end Rep.Proc
