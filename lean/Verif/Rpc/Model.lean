/-
Remote procedure calls: lisp/rep/net/rpc.jl.

A process is a `Host`; its sockets are numbered.  The callback of a call is known by the number of the call.  A program that waits for the
answer (`synchronous-method-call`) does so in the callback, while output is still accepted: so whatever may happen between the rounds of the
output handler may also happen while a servant runs.  Not modelled: `socket-cache`, proxies and global ids, closing of sockets, `debug`.
-/
import Verif.Reader.Model

namespace Rep.Rpc

open Rep.Reader

/-- A symbol. -/
def sym (s : String) : Obj := .sym s.toList

/-- `car`; nil for nil, and `none` is an error. -/
def car : Obj → Option Obj
  | .cons a _ => some a
  | .nil => some .nil
  | _ => none

/-- `nthcdr`, for lists -/
def nthcdr : Nat → Obj → Obj
  | 0, o => o
  | n + 1, .cons _ d => nthcdr n d
  | _ + 1, _ => .nil

/-- `nth`, for lists -/
def nth (n : Nat) (o : Obj) : Obj :=
  match nthcdr n o with
  | .cons a _ => a
  | _ => .nil

/-- The number of a call; calls are numbered from 1 with fixnums. -/
def callId : Obj → Option Nat
  | .num (.fix (.ofNat n)) => some n
  | _ => none

/-- rpc.jl:123-128 `:socket-data` (without `closable`) -/
structure SockData where
  pendingData : List Char := []
  pendingCalls : List Nat := []

/-- The variables of the module in one process. -/
structure Host where
  /-- rpc.jl:188 the counter of `make-call-id` -/
  counter : Nat := 0
  /-- rpc.jl:185 the keys of the table `pending-calls` -/
  pending : List Nat := []
  /-- rpc.jl:143 `socket-data-table` -/
  socks : Nat → Option SockData
  /-- rpc.jl:331 the keys of `servant-table` -/
  servants : List (List Char) := []

/-- The record of a socket is changed. -/
def Host.setSock (h : Host) (s : Nat) (d : Option SockData) : Host := { h with socks := fun i => if i = s then d else h.socks i }

/-- rpc.jl:193 `record-pending-call`; `none` is an error (the socket is not registered) -/
def recordPendingCall (h : Host) (s : Nat) (id : Nat) : Option Host :=
  match h.socks s with
  | none => none
  | some d => some ({ h with pending := id :: h.pending }.setSock s (some { d with pendingCalls := id :: d.pendingCalls }))

/-- rpc.jl:198 `dispatch-pending-call`, and whether the callback is called -/
def dispatchPendingCall (h : Host) (s : Nat) (id : Obj) : Option (Host × Option Nat) :=
  match h.socks s with
  | none => none
  | some d =>
      match callId id with
      | none => some (h, none)
      | some n =>
          let h := h.setSock s (some { d with pendingCalls := d.pendingCalls.filter (· ≠ n) })
          if n ∈ h.pending then some ({ h with pending := h.pending.filter (· ≠ n) }, some n) else some (h, none)

/-- rpc.jl:286, 291 the request that `invoke-method` and `invoke-oneway-method` write -/
def request (id : Obj) (servant : List Char) (args : Obj) : Obj := .cons (sym "call") (.cons id (.cons (.sym servant) args))

/-- rpc.jl:280 the response -/
def response (id : Obj) (ok : Bool) (v : Obj) : Obj := .cons (sym "result") (.cons id (.cons (if ok then sym "t" else .nil) (.cons v .nil)))

/-- The number of a call as an object. -/
def idObj (n : Nat) : Obj := .num (.fix (.ofNat n))

/-- rpc.jl:284 `invoke-method`, with `make-call-id`: the new state, and the number -/
def invokeMethod (h : Host) (s : Nat) : Option (Host × Nat) :=
  (recordPendingCall { h with counter := h.counter + 1 } s (h.counter + 1)).map fun h => (h, h.counter)

/-- rpc.jl:231-233: output arrives -/
def arrive (h : Host) (s : Nat) (output : List Char) : Option Host :=
  (h.socks s).map fun d => h.setSock s (some { d with pendingData := d.pendingData ++ output })

/-- What the first half of a round of the loop does. -/
inductive Round where
  /-- the loop is left -/
  | out
  | error
  | ub
  | form (h : Host) (form : Obj)

/-- rpc.jl:236-255: a form is read, if there is a whole one, and the text behind it is kept -/
def readForm (h : Host) (s : Nat) : Round :=
  match h.socks s with
  | none => .error
  | some d =>
      match read d.pendingData 240 with
      | .ok v rest _ => .form (h.setSock s (some { d with pendingData := rest })) v
      | .err .premature => .out
      | .err .endOfStream => .out
      | .err .invalid => .error
      | _ => .ub

/-- What is to be done with a form. -/
inductive Act where
  | ignore
  | error
  | result (id : Obj) (ok : Bool) (v : Obj)
  | call (id : Obj) (servant : Obj) (args : Obj)

/-- whether an object is true -/
def truth : Obj → Bool
  | .nil => false
  | _ => true

/-- rpc.jl:257-282: the message -/
def act (form : Obj) : Act :=
  match car form with
  | none => .error
  | some (.sym name) =>
      if name = "result".toList then .result (nth 1 form) (truth (nth 2 form)) (nth 3 form)
      else if name = "call".toList then .call (nth 1 form) (nth 2 form) (nthcdr 3 form)
      else .ignore
  | some _ => .ignore

/-- rpc.jl:172-177: the calls on a lost connection fail; the second value is whether there is no error, the third which callbacks are called -/
def failCalls (s : Nat) : List Nat → Host → Host × Bool × List Nat
  | [], h => (h, true, [])
  | id :: ids, h =>
      match dispatchPendingCall h s (idObj id) with
      | none => (h, false, [])
      | some (h, c) => let r := failCalls s ids h; (r.1, r.2.1, c.toList ++ r.2.2)

/-- rpc.jl:160 `deregister-rpc-server` -/
def deregister (h : Host) (s : Nat) : Host × Bool × List Nat :=
  match h.socks s with
  | none => (h, true, [])
  | some d => failCalls s d.pendingCalls (h.setSock s none)

/-! ### Several processes -/

/-- A servant that is being called. -/
structure Exec where
  /-- the socket from which the call came -/
  sock : Nat
  id : Obj
  servant : Obj
  args : Obj
  /-- whether there is such a servant -/
  known : Bool

/-- A call made by a program. -/
structure Call where
  sock : Nat
  id : Nat
  servant : List Char
  args : Obj

/-- A callback has been called. -/
structure Answer where
  sock : Nat
  id : Nat
  ok : Bool
  value : Obj

/-- All processes, the text that is under way to each socket, the servants that are being called; and what has happened up to now. -/
structure Net where
  host : Nat → Host
  wire : Nat → List Char
  running : List Exec
  /-- the calls that programs have made -/
  calls : List Call
  /-- the calls of servants that have been started -/
  started : List Exec
  /-- the calls of servants that have returned (or raised an exception) -/
  returned : List (Exec × Bool × Obj)
  /-- the callbacks that have been called -/
  answers : List Answer
  /-- the sockets whose connection has been lost -/
  lost : List Nat

/-- Which process a socket belongs to, and which socket is at the other end. -/
structure Wiring where
  owner : Nat → Nat
  peer : Nat → Nat

/-- What may happen. -/
inductive Event where
  /-- a program calls a proxy, with a callback, at a certain `print-escape` -/
  | call (s : Nat) (e : Escape) (servant : List Char) (args : Obj)
  /-- a program calls a proxy without callback -/
  | oneway (s : Nat) (e : Escape) (servant : List Char) (args : Obj)
  /-- some characters arrive -/
  | deliver (s : Nat) (n : Nat)
  /-- a round of the loop in the output handler -/
  | round (s : Nat)
  /-- the running servant with this index returns a value, or raises it -/
  | finish (k : Nat) (e : Escape) (ok : Bool) (v : Obj)
  /-- a servant is made, or destroyed -/
  | servant (host : Nat) (name : List Char)
  | destroy (host : Nat) (name : List Char)
  /-- the connection is lost, which this end is told -/
  | lose (s : Nat)

/-- One process is changed. -/
def Net.setHost (net : Net) (i : Nat) (h : Host) : Net := { net with host := fun j => if j = i then h else net.host j }

/-- `write` to a socket: the other end will read it -/
def Net.send (w : Wiring) (net : Net) (s : Nat) (text : List Char) : Net :=
  { net with wire := fun i => if i = w.peer s then net.wire i ++ text else net.wire i }

/-- rpc.jl:257-282, after a form has been read -/
def Net.perform (w : Wiring) (net : Net) (s : Nat) : Act → Net
  | .ignore => net
  | .error => net
  | .result id ok v =>
      match dispatchPendingCall (net.host (w.owner s)) s id with
      | none => net
      | some (h, none) => net.setHost (w.owner s) h
      | some (h, some n) => { net.setHost (w.owner s) h with answers := ⟨s, n, ok, v⟩ :: net.answers }
  | .call id servant args =>
      let x : Exec := ⟨s, id, servant, args, (net.host (w.owner s)).servants.any fun n => match servant with | .sym m => n == m | _ => false⟩
      { net with running := x :: net.running, started := x :: net.started }

/-- One event; `none` if it is not possible.  (Errors are reported and change nothing more.) -/
def Net.step (w : Wiring) (net : Net) : Event → Option Net
  | .call s e servant args =>
      let h := net.host (w.owner s)
      if h.counter + 1 < 2 ^ 61 then
        (invokeMethod h s).map fun (h, n) =>
          { (net.setHost (w.owner s) h).send w s (prin e (request (idObj n) servant args)) with calls := ⟨s, n, servant, args⟩ :: net.calls }
      else none
  | .oneway s e servant args =>
      if ((net.host (w.owner s)).socks s).isSome then some (net.send w s (prin e (request .nil servant args))) else none
  | .deliver s n =>
      (arrive (net.host (w.owner s)) s ((net.wire s).take n)).map fun h =>
        { net.setHost (w.owner s) h with wire := fun i => if i = s then (net.wire s).drop n else net.wire i }
  | .round s =>
      match readForm (net.host (w.owner s)) s with
      | .out => some net
      | .error => some net
      | .ub => none
      | .form h form => some ((net.setHost (w.owner s) h).perform w s (act form))
  | .finish k e ok v =>
      match net.running[k]? with
      | none => none
      | some x =>
          if ok ∧ ¬ x.known then none
          else
            let net' := { net with running := net.running.eraseIdx k, returned := (x, ok, v) :: net.returned }
            if truth x.id ∧ ((net.host (w.owner x.sock)).socks x.sock).isSome then some (net'.send w x.sock (prin e (response x.id ok v)))
            else some net'
  | .servant i name => some (net.setHost i { net.host i with servants := name :: (net.host i).servants })
  | .destroy i name => some (net.setHost i { net.host i with servants := (net.host i).servants.filter (· ≠ name) })
  | .lose s =>
      let r := deregister (net.host (w.owner s)) s
      some { net.setHost (w.owner s) r.1 with
        lost := s :: net.lost
        wire := fun i => if i = s ∨ i = w.peer s then [] else net.wire i
        answers := r.2.2.map (fun n => ⟨s, n, false, sym "rpc-error"⟩) ++ net.answers }

/-- Before anything has happened, all sockets are connected and registered. -/
def Net.start (w : Wiring) : Net where
  host := fun i => { socks := fun s => if w.owner s = i then some {} else none }
  wire := fun _ => []
  running := []
  calls := []
  started := []
  returned := []
  answers := []
  lost := []

/-- Several events. -/
def Net.run (w : Wiring) (net : Net) : List Event → Option Net
  | [] => some net
  | ev :: evs => (net.step w ev).bind fun net => net.run w evs

end Rep.Rpc
