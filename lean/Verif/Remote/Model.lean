/-
The protocol between the file handler `remote-rep` (lisp/rep/io/file-handlers/remote/rep.jl) and
the program rep-remote on the other machine (src/rep-remote.c).

Bytes are numbers.  The server reads from a list of pieces: a call of `read` returns bytes of the
first piece only, as many as were asked for if the piece has them.  What the commands do to files
is a parameter (`Files`).
-/

namespace Rep.Remote

abbrev Bytes := List Nat

/-! ### numbers -/

/-- A hexadecimal digit as printed by `%x`. -/
def hexChar (d : Nat) : Nat := if d < 10 then 48 + d else 87 + d

/-- `%lx` of a non-negative number. -/
def toHex (n : Nat) : Bytes :=
  if n < 16 then [hexChar n] else toHex (n / 16) ++ [hexChar (n % 16)]
termination_by n

/-- `%08lx` (rep-remote.c:110), and `%08x` of the Lisp function `format` (rep.jl:193-194). -/
def padHex (n : Nat) : Bytes := List.replicate (8 - (toHex n).length) 48 ++ toHex n

/-- `send_long` (rep-remote.c:106-113): eight characters are written, however many there are. -/
def sendLong (n : Nat) : Bytes := (padHex n).take 8

/-- `send_string` (rep-remote.c:125-132). -/
def sendString (s : Bytes) : Bytes := sendLong s.length ++ s

/-- Value of a hexadecimal digit, upper or lower case. -/
def hexVal (c : Nat) : Option Nat :=
  if 48 ≤ c ∧ c ≤ 57 then some (c - 48)
  else if 97 ≤ c ∧ c ≤ 102 then some (c - 87)
  else if 65 ≤ c ∧ c ≤ 70 then some (c - 55)
  else none

/-- `strtol (buf, 0, 16)` (rep-remote.c:122): the digits at the start.  Simplification: white
space, a sign or `0x` before the digits, which no client sends, are not accepted. -/
def strtol16 (s : Bytes) : Nat := go 0 s
where
  go (acc : Nat) : Bytes → Nat
    | [] => acc
    | c :: s => match hexVal c with
      | some d => go (acc * 16 + d) s
      | none => acc

/-! ### the server -/

/-- What the commands do to the files of the other machine, and the messages for errors. -/
structure Files (σ : Type) where
  /-- commands without data: the new state, or the error and the new state -/
  simple : Nat → List Bytes → σ → σ × Option Bytes
  /-- contents of a file -/
  get : σ → Bytes → Except Bytes Bytes
  /-- a file opened for writing: the state for each contents -/
  put : σ → Bytes → Except Bytes (Bytes → σ)
  readlink : σ → Bytes → Except Bytes Bytes
  /-- the texts of the records that are written for a directory -/
  readdir : σ → Bytes → Except Bytes (List Bytes)

/-- `read (0, buf, n)` for `n > 0`; no bytes if there are none yet. -/
def readSome (n : Nat) : List Bytes → Bytes × List Bytes
  | [] => ([], [])
  | c :: cs => if c.length ≤ n then (c, cs) else (c.take n, c.drop n :: cs)

/-- How the server goes on: it has taken something from its input, it waits for more, or it has
ended (an error in `x_perror`, a failed assertion, `Q`). -/
inductive Next (α : Type) where
  | go (a : α) (rest : List Bytes)
  | wait
  | exit
  deriving Repr, DecidableEq

def Next.bind {α β : Type} : Next α → (α → List Bytes → Next β) → Next β
  | .go a rest, f => f a rest
  | .wait, _ => .wait
  | .exit, _ => .exit

/-- `read` of exactly `n > 0` bytes, or the end (rep-remote.c:119-120, 139-140). -/
def readExactly (n : Nat) (cs : List Bytes) : Next Bytes :=
  let r := readSome n cs
  if r.1.length = n then .go r.1 r.2 else if r.1.length = 0 then .wait else .exit

/-- `read_char` (rep-remote.c:97-104). -/
def readChar (cs : List Bytes) : Next Nat :=
  (readExactly 1 cs).bind fun b rest => match b with
    | [c] => .go c rest
    | _ => .exit

/-- `read_long` (rep-remote.c:115-123). -/
def readLong (cs : List Bytes) : Next Nat := (readExactly 8 cs).bind fun b rest => .go (strtol16 b) rest

/-- `read_string` (rep-remote.c:134-143); the string ends at the first null character. -/
def readString (cs : List Bytes) : Next Bytes :=
  (readLong cs).bind fun n rest =>
    if n = 0 then .go [] rest
    else (readExactly n rest).bind fun b rest => .go (b.takeWhile (· ≠ 0)) rest

/-- rep-remote.c:518-519: the arguments. -/
def readStrings : Nat → List Bytes → Next (List Bytes)
  | 0, cs => .go [] cs
  | n + 1, cs => (readString cs).bind fun s rest => (readStrings n rest).bind fun l rest => .go (s :: l) rest

/-- BUFSIZ of the C library. -/
def bufsiz : Nat := 8192

/-- The loop of `do_put` (rep-remote.c:285-297): `done` has been written to the file. -/
def putLoop (todo : Nat) (done : Bytes) (cs : List Bytes) : Next Bytes :=
  if _h : todo = 0 then .go done cs
  else match cs with
    | [] => .wait
    | [] :: cs => putLoop todo done cs
    | (b :: c) :: cs =>
        let n := min todo bufsiz
        let r := readSome n ((b :: c) :: cs)
        putLoop (todo - r.1.length) (done ++ r.1) r.2
termination_by (todo, cs.length)
decreasing_by
  · exact Prod.Lex.right _ (by simp)
  · apply Prod.Lex.left
    simp only [readSome]
    have : 0 < bufsiz := by decide
    split <;> simp <;> omega

def sendSuccess : Bytes := [1]
/-- `send_errno` (rep-remote.c:151-156). -/
def sendErrno (msg : Bytes) : Bytes := 127 :: sendString msg

/-- The commands without data, with the number of their arguments (rep-remote.c:514-550). -/
def simpleArity : Nat → Option Nat
  | 82 => some 1    -- R
  | 114 => some 1   -- r
  | 77 => some 2    -- M
  | 109 => some 1   -- m
  | 67 => some 2    -- C
  | 99 => some 2    -- c
  | 76 => some 2    -- L
  | _ => none

/-- One round of the loop of `main` (rep-remote.c:507-578): the new state and what is written.
A failed assertion ends the program.  `read_char` returns a `char`, so 255 is taken for the end
of the input and numbers of arguments from 128 on are negative. -/
def serveOne {σ : Type} (F : Files σ) (s : σ) (cs : List Bytes) : Next (σ × Bytes) :=
  (readChar cs).bind fun command cs =>
  (readChar cs).bind fun nargs cs =>
  if command = 255 ∨ nargs = 255 then .exit
  else if 64 ≤ nargs ∧ nargs < 128 then .exit
  else
  (readStrings (if nargs < 64 then nargs else 0) cs).bind fun args cs =>
  if command = 71 then        -- G
    match args with
    | [name] => match F.get s name with
      | .ok data => .go (s, sendSuccess ++ sendLong data.length ++ data) cs
      | .error e => .go (s, sendErrno e) cs
    | _ => .exit
  else if command = 80 then   -- P
    match args with
    | [name] => match F.put s name with
      | .ok write => (readLong cs).bind fun size cs => (putLoop size [] cs).bind fun data cs =>
          .go (write data, sendSuccess) cs
      | .error e => .go (s, sendErrno e) cs
    | _ => .exit
  else if command = 108 then  -- l
    match args with
    | [name] => match F.readlink s name with
      | .ok data => .go (s, sendSuccess ++ sendString data) cs
      | .error e => .go (s, sendErrno e) cs
    | _ => .exit
  else if command = 68 then   -- D
    match args with
    | [name] => match F.readdir s name with
      | .ok entries => .go (s, (entries.map fun e => 2 :: sendString e).flatten ++ sendSuccess) cs
      | .error e => .go (s, sendErrno e) cs
    | _ => .exit
  else if command = 81 then .exit  -- Q
  else match simpleArity command with
    | some n =>
        if args.length = n then
          match F.simple command args s with
          | (s, none) => .go (s, sendSuccess) cs
          | (s, some e) => .go (s, sendErrno e) cs
        else .exit
    | none => .go (s, []) cs

/-! ### the client -/

inductive Status where
  | busy | success | failure
  deriving DecidableEq, Repr

/-- The function that handles output while a command runs (slot `remote-rep-callback`). -/
inductive Callback where
  | none
  /-- `remote-rep-get`: the bytes still to come, once they are known -/
  | get (len : Option Nat)
  | link
  | dir
  deriving DecidableEq, Repr

/-- The slots of a session that matter here (rep.jl:90-100), the file that `remote-rep-get` writes,
the link that was read and the records of the directory, last first. -/
structure Session where
  status : Status
  callback : Callback
  pending : Option Bytes
  error : Bytes
  protocol : Option Nat
  file : Bytes
  link : Option Bytes
  entries : List Bytes
  deriving DecidableEq, Repr

/-- `remote-rep-read-length` (rep.jl:235-245), of the rest of the string from the point on.
Characters that are not digits count as 0.  Simplification: those from 128 on too (they are an
error in the code). -/
def readLength (s : Bytes) : Option Nat :=
  match s with
  | c0 :: c1 :: c2 :: c3 :: c4 :: c5 :: c6 :: c7 :: _ =>
      let v := fun c => (hexVal c).getD 0
      some (v c7 + v c6 * 2 ^ 4 + v c5 * 2 ^ 8 + v c4 * 2 ^ 12 + v c3 * 2 ^ 16 + v c2 * 2 ^ 20 +
        v c1 * 2 ^ 24 + v c0 * 2 ^ 28)
  | _ => none

/-- `remote-rep-read-string` (rep.jl:248-252). -/
def readStr (s : Bytes) : Option Bytes :=
  match readLength s with
  | some n => if s.length ≥ 8 + n then some ((s.drop 8).take n) else none
  | none => none

/-- The function of `remote-rep-get` (rep.jl:338-374).  `none` is a Lisp error: `aset` is called
with two arguments at line 363. -/
def getCallback (s : Session) (len : Option Nat) (out : Bytes) : Option Session :=
  let r : Option (Session × Option Nat × Bytes) := match len with
    | some n => some (s, some n, out)
    | none => match out with
      | 1 :: rest => match readLength rest with
        | some n => some (s, some n, out.drop 9)
        | none => some ({ s with pending := some out }, none, out)
      | 127 :: rest => match readStr rest with
        | some msg => some ({ s with status := .failure, error := msg }, none, out)
        | none => none
      | _ => some (s, none, out)
  match r with
  | none => none
  | some (s, none, _) => some { s with callback := .get none }
  | some (s, some n, rest) =>
      let this := min n rest.length
      let s := { s with file := s.file ++ rest.take this, callback := .get (some (n - this)) }
      some (if n - this = 0 then { s with status := .success } else s)

/-- The function of `remote-rep-read-symlink` (rep.jl:440-459). -/
def linkCallback (s : Session) (out : Bytes) : Session :=
  match out with
  | 1 :: rest => match readStr rest with
    | some l => { s with link := some l, status := .success }
    | none => { s with link := none, pending := some out }
  | 127 :: rest => match readStr rest with
    | some msg => { s with status := .failure, error := msg }
    | none => { s with pending := some out }
  | _ => s

/-- The loop of `remote-rep-dircache-callback` (rep.jl:565-581): the records so far and the rest
of the output.  `(string-match "\002" output point)` looks for the character anywhere. -/
def dirLoop (fuel : Nat) (entries : List Bytes) (out : Bytes) : List Bytes × Bytes :=
  match fuel with
  | 0 => (entries, out)
  | fuel + 1 => match out.dropWhile (· ≠ 2) with
    | [] => (entries, out)
    | _ :: start => match readStr start with
      | some text => dirLoop fuel (text :: entries) (start.drop (8 + text.length))
      | none => (entries, out)

/-- `remote-rep-dircache-callback` (rep.jl:564-599).  Reading the record from its text is left to
the reader. -/
def dirCallback (s : Session) (out : Bytes) : Session :=
  let r := dirLoop (out.length + 1) s.entries out
  let s := { s with entries := r.1 }
  match r.2 with
  | [] => s
  | 1 :: _ => { s with status := .success }
  | 127 :: rest => match readStr rest with
    | some msg => { s with status := .failure, error := msg }
    | none => { s with pending := some r.2 }
  | _ => { s with pending := some r.2 }

/-- Text of the signature before the number (rep.jl:66). -/
def signature : Bytes := [2, 114, 101, 112, 45, 114, 101, 109, 111, 116, 101, 59, 32, 112, 114, 111, 116, 111, 99,
  111, 108, 32]

/-- `(string-match "\002rep-remote; protocol (\\d+)\002" output point)`: the number and what comes
after the match. -/
def findSignature : Bytes → Option (Nat × Bytes)
  | [] => none
  | c :: out =>
      let here : Option (Nat × Bytes) :=
        if signature.isPrefixOf (c :: out) then
          let r := (c :: out).drop signature.length
          let ds := r.takeWhile (fun c => 48 ≤ c && c ≤ 57)
          match ds, r.drop ds.length with
          | _ :: _, 2 :: rest => some (ds.foldl (fun n d => n * 10 + (d - 48)) 0, rest)
          | _, _ => none
        else none
      match here with
      | some x => some x
      | none => findSignature out

/-- Does `[Pp]assword: *` match (rep.jl:68)? -/
def asksPassword : Bytes → Bool
  | [] => false
  | c :: out => ((c = 80 || c = 112) && ([97, 115, 115, 119, 111, 114, 100, 58] : Bytes).isPrefixOf out) ||
      asksPassword out

/-- The loop of `remote-rep-output-filter` without a callback (rep.jl:264-308).  Asking for the
password and sending it is not modelled: the output is dropped, as it is there. -/
def filterLoop (fuel : Nat) (s : Session) (out : Bytes) : Session :=
  match fuel with
  | 0 => s
  | fuel + 1 => match out with
    | [] => s
    | c :: rest =>
        if s.protocol.isNone && asksPassword out then { s with status := .busy }
        else match findSignature out with
          | some (p, rest) => filterLoop fuel { s with protocol := some p } rest
          | none =>
              if c = 1 then filterLoop fuel { s with status := .success } rest
              else if c = 127 then match readStr rest with
                | some msg => filterLoop fuel { s with error := msg, status := .failure } (out.drop (9 + msg.length))
                | none => { s with pending := some out }
              else s

/-- `remote-rep-output-filter` (rep.jl:254-308). -/
def outputFilter (s : Session) (data : Bytes) : Option Session :=
  let out := s.pending.getD [] ++ data
  let s := { s with pending := none }
  match s.callback with
  | .get len => getCallback s len out
  | .link => some (linkCallback s out)
  | .dir => some (dirCallback s out)
  | .none => some (filterLoop (out.length + 1) s out)

/-- The output of the process comes in pieces. -/
def feed (s : Session) : List Bytes → Option Session
  | [] => some s
  | p :: ps => (outputFilter s p).bind fun s => feed s ps

/-- A command of the client. -/
inductive Cmd where
  | simple (command : Nat) (args : List Bytes)
  | get (name : Bytes)
  | put (name data : Bytes)
  | link (name : Bytes)
  | dir (name : Bytes)
  deriving Repr

/-- `remote-rep-send-string` (rep.jl:196-198): two writes. -/
def writeString (s : Bytes) : List Bytes := [padHex s.length, s]

/-- `remote-rep-command` (rep.jl:211-223): what is written, call by call; `data` is what
`output-fun` writes. -/
def command (type : Nat) (args : List Bytes) (data : List Bytes) : List Bytes :=
  [[type, args.length]] ++ (args.map writeString).flatten ++ data

/-- The writes of a command.  The data of a file are copied in blocks, given by `blocks`
(`copy-stream`, rep.jl:391-392). -/
def writes (c : Cmd) (blocks : Bytes → List Bytes) : List Bytes :=
  match c with
  | .simple t args => command t args []
  | .get name => command 71 [name] []
  | .put name data => command 80 [name] (padHex data.length :: blocks data)
  | .link name => command 108 [name] []
  | .dir name => command 68 [name] []

/-- The session when the command has been sent: `remote-rep-write` makes it busy. -/
def start (s : Session) (c : Cmd) : Session :=
  let s := { s with status := .busy, file := [], link := none, entries := [] }
  match c with
  | .get _ => { s with callback := .get none }
  | .link _ => { s with callback := .link }
  | .dir _ => { s with callback := .dir }
  | _ => s

/-- What a command returns to the user. -/
inductive Result where
  | done
  | contents (b : Bytes)
  | link (b : Bytes)
  | entries (l : List Bytes)
  | error (msg : Bytes)
  deriving DecidableEq, Repr

/-- The result of a session that is no longer busy (rep.jl:226-233). -/
def result (s : Session) (c : Cmd) : Option Result :=
  match s.status with
  | .busy => none
  | .failure => some (.error s.error)
  | .success => match c with
    | .get _ => some (.contents s.file)
    | .link _ => s.link.map .link
    | .dir _ => some (.entries s.entries)
    | _ => some .done

/-- After the command the callback is removed (rep.jl:377, 462, 540). -/
def finish (s : Session) : Session := { s with callback := .none }

end Rep.Remote
