/-
Sockets (src/sockets.c): connections, the functions that are called for them, and their numbers in
the table of open files, which the system uses again.

The functions in Lisp (streams, sentinels and the functions of servers) are parameters: they look at
the state and carry out a list of operations.  The operations also contain what the other side does,
so that it can happen at any time.
-/

namespace Rep.Sock

abbrev Bytes := List Nat

/-- What does not change in a socket (sockets.c:57-67): `conn` is the connection or, of a server,
the listening end in the system; `stream` and `sentinel` tell whether they are there. -/
structure Info where
  client : Bool
  conn : Nat
  stream : Bool
  sentinel : Bool
  deriving DecidableEq, Repr

/-- A socket in `socket_list`; `fd` is `none` for -1. -/
structure Socket where
  id : Nat
  fd : Option Nat
  active : Bool
  deriving DecidableEq, Repr

/-- Why a connection ended. -/
inductive Cause where
  | eof | error
  deriving DecidableEq, Repr

/-- What the program notices. -/
inductive Event where
  /-- the stream gets bytes -/
  | data (sid : Nat) (b : Bytes)
  /-- the sentinel is called -/
  | ended (sid : Nat) (why : Cause)
  /-- the function of a server is called -/
  | asked (sid : Nat)
  /-- `close-socket` was called -/
  | closed (sid : Nat)
  /-- `abort ()`, or a socket that has been freed -/
  | crash
  deriving DecidableEq, Repr

/-- An open file of the system. -/
inductive File where
  | conn (c : Nat)
  | listener (l : Nat)
  deriving DecidableEq, Repr

inductive Action where
  | client | server
  deriving DecidableEq, Repr

structure St where
  /-- `socket_list` -/
  socks : List Socket
  info : Nat → Info
  /-- table of open files -/
  files : Nat → Option File
  /-- `input_actions` (unix_main.c:281-300) -/
  action : Nat → Option Action
  /-- bytes of a connection that have come and have not been read -/
  inbox : Nat → Bytes
  /-- the other side has closed the connection -/
  hung : Nat → Bool
  /-- connections that wait to be accepted -/
  waiting : Nat → List Nat
  /-- all bytes that the other side has sent (history) -/
  sent : Nat → Bytes
  nextSock : Nat
  nextConn : Nat
  log : List Event

def upd {α : Type} (f : Nat → α) (k : Nat) (v : α) : Nat → α := fun x => if x = k then v else f x

def St.note (st : St) (e : Event) : St := { st with log := st.log ++ [e] }

/-- What a program and the other side can do. -/
inductive Op where
  /-- `socket-client`, `socket-local-client`: the system gives the number `f`; `ok` if the
  connection is made -/
  | connect (f : Nat) (ok stream sentinel : Bool)
  /-- `socket-server`, `socket-local-server` -/
  | listen (f : Nat) (ok fn sentinel : Bool)
  /-- `socket-accept` -/
  | accept (sid f : Nat) (stream sentinel : Bool)
  /-- `close-socket` -/
  | close (sid : Nat)
  /-- a write that fails -/
  | writeFails (sid : Nat)
  /-- input on `f` is handled by the event loop -/
  | dispatch (f : Nat)
  /-- the collector; `keep` are the sockets that are in use elsewhere -/
  | gc (keep : List Nat)
  /-- the other side sends -/
  | arrive (c : Nat) (b : Bytes)
  /-- the other side closes -/
  | hangup (c : Nat)
  /-- the other side asks for a connection -/
  | request (l : Nat)
  deriving DecidableEq, Repr

/-- `make_socket_` (sockets.c:82-104), then registration (sockets.c:201-203, 236-238, 475-477):
`active` is false when the connection could not be made and `shutdown_socket` was called. -/
def St.make (st : St) (f : Nat) (i : Info) (file : File) (act : Action) (ok : Bool) : St :=
  if ok then
    { st with
      socks := { id := st.nextSock, fd := some f, active := true } :: st.socks
      info := upd st.info st.nextSock i
      files := upd st.files f (some file)
      action := upd st.action f (some act)
      nextSock := st.nextSock + 1 }
  else
    { st with
      socks := { id := st.nextSock, fd := none, active := false } :: st.socks
      info := upd st.info st.nextSock i
      nextSock := st.nextSock + 1 }

/-- `shutdown_socket` (sockets.c:116-131). -/
def St.shutdown (st : St) (sid : Nat) : St :=
  match st.socks.find? (·.id = sid) with
  | none => st.note .crash
  | some s =>
      let st := match s.fd with
        | some f => { st with files := upd st.files f none, action := upd st.action f none }
        | none => st
      { st with socks := st.socks.map fun x => if x.id = sid then { x with fd := none, active := false } else x }

/-- `socket_for_fd` (sockets.c:150-160). -/
def St.forFd (st : St) (f : Nat) : Option Socket := st.socks.find? (·.fd = some f)

/-- `read (fd, buf, 1024)` on a socket that does not block. -/
inductive Read where
  | data (b : Bytes) (st : St)
  | again
  | ended (why : Cause)

def St.read (st : St) (f : Nat) : Read :=
  match st.files f with
  | some (.conn c) =>
      if st.inbox c ≠ [] then
        .data ((st.inbox c).take 1024) { st with inbox := upd st.inbox c ((st.inbox c).drop 1024) }
      else if st.hung c then .ended .eof
      else .again
  | _ => .ended .error

/-- The functions in Lisp. -/
structure Lisp where
  stream : St → Nat → Bytes → List Op
  sentinel : St → Nat → List Op
  server : St → Nat → List Op

/-- What is being done: an operation, or the loop of `client_socket_output`. -/
inductive Task where
  | op (o : Op)
  | reading (f sid : Nat)

/-- `shutdown_socket_and_call_sentinel` (sockets.c:133-139). -/
def St.finish (st : St) (L : Lisp) (sid : Nat) (why : Cause) (run : St → Op → St) : St :=
  let st := st.shutdown sid
  if (st.info sid).sentinel then
    let st := st.note (.ended sid why)
    (L.sentinel st sid).foldl run st
  else st

/-- One operation; `fuel` bounds the depth of calls. -/
def exec (L : Lisp) : Nat → St → Task → St
  | 0, st, _ => st
  | fuel + 1, st, task =>
    let run := fun st o => exec L fuel st (.op o)
    match task with
    -- `client_socket_output` (sockets.c:165-190)
    | .reading f sid =>
        match st.read f with
        | .data b st =>
            let st := if (st.info sid).stream then
                let st := st.note (.data sid b)
                (L.stream st sid b).foldl run st
              else st
            exec L fuel st (.reading f sid)
        | .again => st
        | .ended why => st.finish L sid why run
    | .op (.dispatch f) =>
        match st.action f with
        | none => st
        | some .client => match st.forFd f with
          | none => st.note .crash
          | some s => exec L fuel st (.reading f s.id)
        -- `server_socket_output` (sockets.c:214-222)
        | some .server => match st.forFd f with
          | none => st.note .crash
          | some s =>
              if (st.info s.id).stream then
                let st := st.note (.asked s.id)
                (L.server st s.id).foldl run st
              else st
    -- `make_client_socket` (sockets.c:192-209)
    | .op (.connect f ok stream sentinel) =>
        if (st.files f).isSome then st
        else
          let c := st.nextConn
          { st.make f { client := true, conn := c, stream, sentinel } (.conn c) .client ok with nextConn := c + 1 }
    -- `make_server_socket` (sockets.c:225-245)
    | .op (.listen f ok fn sentinel) =>
        if (st.files f).isSome then st
        else
          let l := st.nextConn
          { st.make f { client := false, conn := l, stream := fn, sentinel } (.listener l) .server ok with
            nextConn := l + 1 }
    -- `socket-accept` (sockets.c:432-484)
    | .op (.accept sid f stream sentinel) =>
        match st.socks.find? (·.id = sid) with
        | some { active := true, fd := some g, .. } => match st.files g with
          | some (.listener l) => match st.waiting l with
            | c :: rest =>
                if (st.files f).isSome then st
                else
                  let st := { st with waiting := upd st.waiting l rest }
                  st.make f { client := true, conn := c, stream, sentinel } (.conn c) .client true
            | [] => st
          | _ => st
        | _ => st
    -- `close-socket` (sockets.c:419-430)
    | .op (.close sid) =>
        if st.socks.any (·.id = sid) then (st.shutdown sid).note (.closed sid) else st
    -- `blocking_write` (sockets.c:657-691)
    | .op (.writeFails sid) =>
        match st.socks.find? (·.id = sid) with
        | some s => if s.active then st.finish L sid .error run else st
        | none => st
    -- `socket_mark_active`, `socket_sweep` (sockets.c:715-744)
    | .op (.gc keep) =>
        { st with socks := (st.socks.filter fun s => s.active || keep.contains s.id).reverse }
    | .op (.arrive c b) =>
        if c < st.nextConn ∧ st.hung c = false then
          { st with inbox := upd st.inbox c (st.inbox c ++ b), sent := upd st.sent c (st.sent c ++ b) }
        else st
    | .op (.hangup c) => if c < st.nextConn then { st with hung := upd st.hung c true } else st
    | .op (.request l) =>
        let c := st.nextConn
        if c ≤ l then st else
        { st with waiting := upd st.waiting l (st.waiting l ++ [c]), nextConn := c + 1 }

/-- No sockets yet. -/
def St.init : St :=
  { socks := [], info := fun _ => ⟨false, 0, false, false⟩, files := fun _ => none, action := fun _ => none,
    inbox := fun _ => [], hung := fun _ => false, waiting := fun _ => [], sent := fun _ => [], nextSock := 0,
    nextConn := 0, log := [] }

/-- A program. -/
def runAll (L : Lisp) (fuel : Nat) (st : St) (ops : List Op) : St :=
  ops.foldl (fun st o => exec L fuel st (.op o)) st

end Rep.Sock
