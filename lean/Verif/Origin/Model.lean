/-
Origins of forms (src/origin.c) and the line numbers of files they come from
(src/streams.c, src/files.c, src/lisp.c).

Only local files occur: a file of a handler has no valid line number
(src/files.c:673), so nothing is recorded for its forms.
-/
import Mathlib.Data.List.Basic

namespace Rep.Origin

/-- A file open for reading; `line` is `line_number`, `bogus` the flag
`rep_LFF_BOGUS_LINE_NUMBER`.  For the properties: how many ends of lines were
read without being counted. -/
structure File where
  name : Nat
  text : List Nat
  pos : Nat
  line : Int
  bogus : Bool
  skipped : Int

/-- Values: the conses have addresses (which are used again), closures a function. -/
inductive Val
  | atom
  | cons (a : Nat)
  | closure (fn : Val)
  deriving DecidableEq

/-- `struct origin_item` (src/origin.c:28).  Simplification: the chains are lists, so
`next` and the free list of items (src/origin.c:54-67) are left out. -/
structure Item where
  form : Nat
  file : Nat
  line : Int

/-- An activation of `read_list`: its `start_line` (src/lisp.c:302), and for the
properties the position of the parenthesis. -/
structure Frame where
  start : Int
  paren : Nat
  skipped : Int

/-- For the properties: a list that was read; `obj` is a number of its own for each
object. -/
structure Read where
  obj : Nat
  addr : Nat
  file : Nat
  paren : Nat
  recorded : Bool
  skipped : Int

structure St where
  files : List File := []
  /-- `rep_record_origins` -/
  recording : Bool := false
  /-- the file being read by the reader, and the lists it is in -/
  reading : Option (Nat × List Frame) := none
  /-- which object is at an address -/
  obj : Nat → Option Nat := fun _ => none
  next : Nat := 0
  cell : Nat → Val × Val := fun _ => (.atom, .atom)
  buckets : Nat → List Item := fun _ => []
  /-- the guardian -/
  accessible : List Nat := []
  inaccessible : List Nat := []
  /-- for the properties: the lists read so far, and whether the object at an address
  was found unreachable by a collection -/
  log : List Read := []
  lost : Nat → Bool := fun _ => false

/-- What can happen. -/
inductive Event
  | open (name : Nat) (text : List Nat)
  | getc (f : Nat)
  /-- the character read last is put back -/
  | ungetc (f : Nat)
  | readChars (f n : Nat)
  | readLine (f : Nat)
  /-- `(seek-file FILE 0 'start)`, which may fail -/
  | rewind (f : Nat) (ok : Bool)
  | seek (f pos : Nat)
  /-- the reader is called for a file, a list begins, it ends (and its first cell is
  at an address, if it is not empty), the reader returns -/
  | beginRead (f : Nat)
  | beginList
  | endList (a : Option Nat)
  | endRead
  | record (b : Bool)
  | alloc (a : Nat)
  | set (a : Nat) (car cdr : Val)
  /-- a collection: `live` is what is marked before `run_guardians`, `extra` what is
  marked by it -/
  | gc (live extra : Nat → Bool)
  | afterGc

def put {α : Type} (f : Nat → α) (a : Nat) (v : α) : Nat → α := fun x => if x = a then v else f x

/-- `HASH` (src/origin.c:50). -/
def hash (a : Nat) : Nat := (a / 8) % 1024

/-- Reading one character (src/lisp.c:225 `fast_getc`, src/streams.c:122-134). -/
def getc (F : File) : File :=
  match F.text[F.pos]? with
  | none => F
  | some c => { F with pos := F.pos + 1, line := if c = 10 then F.line + 1 else F.line }

/-- `rep_stream_ungetc` (src/streams.c:192-206). -/
def ungetc (F : File) : Option File :=
  if F.pos = 0 then none
  else match F.text[F.pos - 1]? with
    | none => none
    | some c => some { F with pos := F.pos - 1, line := if c = 10 then F.line - 1 else F.line }

/-- `read-chars` (src/streams.c:628-636). -/
def readChars (F : File) (n : Nat) : File :=
  { F with pos := min F.text.length (F.pos + n), bogus := true }

/-- How far it is to the end of the line. -/
def lineLength : List Nat → Nat
  | [] => 0
  | c :: rest => if c = 10 then 1 else lineLength rest + 1

/-- `read-line` (src/streams.c:679-685): the line is read with `fgets`, and the
line number stays as it is.  Simplification: no zero characters. -/
def readLine (F : File) : File :=
  let n := lineLength (F.text.drop F.pos)
  { F with pos := F.pos + n, skipped := F.skipped + ((F.text.drop F.pos).take n).count 10 }

/-- `seek-file` to the start (src/files.c:983-995): the line number is set before
it is known whether `fseek` fails. -/
def rewind (F : File) (ok : Bool) : File :=
  if ok then { F with pos := 0, line := 1, bogus := false, skipped := 0 }
  else { F with line := 1, bogus := false, skipped := (F.text.take F.pos).count 10 }

/-- `seek-file` to another position (src/files.c:988-989). -/
def seek (F : File) (pos : Nat) : File :=
  { F with pos := min F.text.length pos, bogus := true }

/-- `rep_record_origin` (src/origin.c:69-99), for the cons at an address. -/
def recordOrigin (st : St) (a : Nat) (F : File) (start : Int) : St :=
  if st.recording && !F.bogus then
    let item : Item := ⟨a, F.name, if start > 0 then start else F.line⟩
    { st with buckets := put st.buckets (hash a) (item :: st.buckets (hash a)),
              accessible := a :: st.accessible }
  else st

/-- `Fcons`: an address that is not in use. -/
def alloc (st : St) (a : Nat) : Option St :=
  match st.obj a with
  | some _ => none
  | none => some { st with obj := put st.obj a (some st.next), next := st.next + 1,
                           lost := put st.lost a false }

/-- `origin-after-gc` (src/origin.c:151-170): the items of an object handed out by
the guardian are removed. -/
def removeItems (buckets : Nat → List Item) (a : Nat) : Nat → List Item :=
  put buckets (hash a) ((buckets (hash a)).filter fun i => i.form ≠ a)

/-- What can happen to a file while it is being read by the reader: only what the
reader does itself (`inside`). -/
def may (st : St) (f : Nat) (inside : Bool) : Bool :=
  match st.reading with
  | none => true
  | some (f', _) => inside && f' == f

/-- An operation on a file. -/
def onFile (st : St) (f : Nat) (inside : Bool) (g : File → Option File) : Option St :=
  if may st f inside then
    match st.files[f]? with
    | none => none
    | some F => (g F).map fun F' => { st with files := st.files.set f F' }
  else none

/-- One event; `none` if it cannot happen.  No Lisp code runs while a local file
is being read, so there is no collection. -/
def step (st : St) : Event → Option St
  | .open name text =>
    if st.reading.isNone then some { st with files := st.files ++ [⟨name, text, 0, 1, false, 0⟩] }
    else none
  | .getc f => onFile st f true (fun F => some (getc F))
  | .ungetc f => onFile st f true ungetc
  | .readChars f n => onFile st f false (fun F => some (readChars F n))
  | .readLine f => onFile st f false (fun F => some (readLine F))
  | .rewind f ok => onFile st f false (fun F => some (rewind F ok))
  | .seek f pos => onFile st f false (fun F => some (seek F pos))
  | .beginRead f =>
    match st.reading, st.files[f]? with
    | none, some _ => some { st with reading := some (f, []) }
    | _, _ => none
  | .beginList =>
    match st.reading with
    | none => none
    | some (f, frames) =>
      match st.files[f]? with
      | none => none
      | some F =>
        -- the character read last is the parenthesis (src/lisp.c:855, 694)
        if F.pos ≠ 0 ∧ (F.text[F.pos - 1]? = some 40 ∨ F.text[F.pos - 1]? = some 91) then
          some { st with reading := some (f, ⟨F.line, F.pos - 1, F.skipped⟩ :: frames) }
        else none
  | .endList a =>
    match st.reading with
    | some (f, fr :: frames) =>
      match st.files[f]?, a with
      | some _, none => some { st with reading := some (f, frames) }
      | some F, some a =>
        (alloc st a).map fun st' =>
          let st' := recordOrigin st' a F fr.start
          { st' with
            reading := some (f, frames)
            log := ⟨st.next, a, f, fr.paren, st.recording && !F.bogus, fr.skipped⟩ :: st.log }
      | none, _ => none
    | _ => none
  | .endRead => if st.reading.isSome then some { st with reading := none } else none
  | .record b => if st.reading.isNone then some { st with recording := b } else none
  | .alloc a => alloc st a
  | .set a car cdr =>
    if (st.obj a).isSome then some { st with cell := put st.cell a (car, cdr) } else none
  | .gc live extra =>
    let moved := st.accessible.filter (fun a => !live a)
    if st.reading.isNone && st.inaccessible.all live && moved.all extra then
      some { st with
        accessible := st.accessible.filter live
        inaccessible := moved.reverse ++ st.inaccessible
        obj := fun a => if live a || extra a then st.obj a else none
        lost := fun a => st.lost a || !live a }
    else none
  | .afterGc =>
    if st.reading.isNone then
      some { st with buckets := st.inaccessible.foldl removeItems st.buckets, inaccessible := [] }
    else none

/-- A history. -/
def run : List Event → Option St
  | evs => evs.foldl (fun st e => st.bind fun st => step st e) (some {})

/-- Looking for the item of a form (src/origin.c:124-128). -/
def lookup (st : St) (a : Nat) : Option (Nat × Int) :=
  ((st.buckets (hash a)).find? fun i => i.form == a).map fun i => (i.file, i.line)

/-- `lexical-origin` (src/origin.c:115-141), with a bound for the number of steps
(`none`: it is not enough); with `scan`, its last loop. -/
def lexicalOrigin (st : St) : Nat → Bool → Val → Option (Option (Nat × Int))
  | 0, _, _ => none
  | n + 1, false, v =>
    match (match v with | .closure w => w | v => v) with
    | .cons a =>
      match lookup st a with
      | some r => some (some r)
      | none => lexicalOrigin st n true (.cons a)
    | _ => some none
  | n + 1, true, .cons a =>
    match lexicalOrigin st n false (st.cell a).1 with
    | none => none
    | some (some r) => some (some r)
    | some none => lexicalOrigin st n true (st.cell a).2
  | _ + 1, true, _ => some none

end Rep.Origin
