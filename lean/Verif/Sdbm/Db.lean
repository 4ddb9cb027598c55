/-
Model of the sdbm library (src/sdbm.c) and of its Lisp interface (src/repsdbm.c).

The functions are written over an abstract type of pages, with the operations of
src/sdbm_pair.c given by a record; `pages` is the record of the byte-level functions of
Verif.Sdbm.Page and is the one that models the program.  The second instance, in
Verif.Sdbm.DbSpec, has lists of pairs for pages and is the specification they refine.

A file is its number of blocks and the blocks written so far; a block that was skipped
reads as zeros.  System calls do not fail.  Only one process uses the files, and they were
made by the library, so their sizes are whole numbers of blocks.
-/
import Verif.Sdbm.Page

namespace Rep.Sdbm

/-- The operations on pages (src/sdbm_pair.h). -/
structure PageOps (P : Type) where
  zero : P
  fit : P → Int → Bool
  put : P → Bytes → Bytes → Option P
  get : P → Bytes → Option Bytes
  dup : P → Bytes → Bool
  nkey : P → Nat → Option Bytes
  del : P → Bytes → Option (P × Bool)
  split : P → Nat → Option (P × P)
  chk : P → Bool

/-- The pages of src/sdbm_pair.c. -/
def pages : PageOps Page where
  zero := zeroPage
  fit := fitpair
  put := putpair
  get := getpair
  dup := duppair
  nkey := getnkey
  del := delpair
  split := splpage hash
  chk := chkpage

/-- A file of blocks. -/
structure File (β : Type) where
  size : Nat
  blocks : List (Nat × β)

/-- A new file. -/
def File.empty {β : Type} : File β := ⟨0, []⟩

/-- `lseek` to block `i` and `read` one block; `none` at the end of the file. -/
def File.read {β : Type} (f : File β) (zero : β) (i : Nat) : Option β :=
  if i < f.size then some (((f.blocks.find? fun b => b.1 == i).map Prod.snd).getD zero) else none

/-- `lseek` to block `i` and `write` one block. -/
def File.write {β : Type} (f : File β) (i : Nat) (v : β) : File β := ⟨max f.size (i + 1), (i, v) :: f.blocks⟩

/-- src/sdbm.h:15 `SDBM`.  `pos` is the position of the page file, in pages.  A directory
block of 4096 bytes is the number whose bit `8 * i + j` is bit `j` of byte `i`. -/
structure Db (P : Type) where
  pagf : File P
  dirf : File Nat
  pos : Nat
  rdonly : Bool
  ioerr : Bool
  maxbno : Nat
  curbit : Nat
  hmask : Nat
  blkptr : Nat
  keyptr : Nat
  pagbno : Int
  pagbuf : P
  dirbno : Int
  dirbuf : Nat

variable {P : Type} (ops : PageOps P)

/-- src/sdbm.c:100 `sdbm_prep`, on two files that could be opened. -/
def prep (pagf : File P) (dirf : File Nat) (rdonly : Bool) : Db P where
  pagf := pagf
  dirf := dirf
  pos := 0
  rdonly := rdonly
  ioerr := false
  maxbno := dirf.size * 4096 * 8
  curbit := 0
  hmask := 0
  blkptr := 0
  keyptr := 0
  pagbno := -1
  pagbuf := ops.zero
  dirbno := if dirf.size = 0 then 0 else -1
  dirbuf := 0

/-- src/sdbm.c:431, 454 the directory block is read unless it is in memory; at the end of
the file `read` returns 0, which is not an error, and the buffer keeps its contents. -/
def loadDir (db : Db P) (dbit : Nat) : Db P :=
  let dirb := dbit / 8 / 4096
  if (dirb : Int) ≠ db.dirbno then
    { db with dirbuf := (db.dirf.read 0 dirb).getD db.dirbuf, dirbno := dirb }
  else db

/-- src/sdbm.c:425 `getdbit`. -/
def getdbit (db : Db P) (dbit : Nat) : Db P × Bool :=
  let db := loadDir db dbit
  (db, db.dirbuf.testBit (dbit / 8 % 4096 * 8 + dbit % 8))

/-- src/sdbm.c:448 `setdbit`. -/
def setdbit (db : Db P) (dbit : Nat) : Db P :=
  let db := loadDir db dbit
  let buf := db.dirbuf ||| 2 ^ (dbit / 8 % 4096 * 8 + dbit % 8)
  { db with
    dirbuf := buf
    maxbno := if dbit ≥ db.maxbno then db.maxbno + 4096 * 8 else db.maxbno
    dirf := db.dirf.write (dbit / 8 / 4096) buf }

/-- src/sdbm.c:396 the loop of `getpage`: the directory bit and the number of bits of the
hash that were used.  `1 << hbit` is undefined for an `int` when `hbit` is 31. -/
def trie (hash : Nat) : Nat → Db P → Nat → Nat → Option (Db P × Nat × Nat)
  | 0, _, _, _ => none
  | fuel + 1, db, dbit, hbit =>
      if dbit < db.maxbno then
        let r := getdbit db dbit
        if r.2 then trie hash fuel r.1 (2 * dbit + if hash &&& 2 ^ hbit ≠ 0 then 2 else 1) (hbit + 1)
        else some (r.1, dbit, hbit)
      else some (db, dbit, hbit)

/-- src/sdbm.c:410 the page is read unless it is in memory, and checked. -/
def loadPage (db : Db P) (pagb : Nat) : Db P × Bool :=
  if (pagb : Int) ≠ db.pagbno then
    let db := match db.pagf.read ops.zero pagb with
      | none => { db with pos := pagb }
      | some p => { db with pos := pagb + 1, pagbuf := p }
    if ops.chk db.pagbuf then ({ db with pagbno := pagb }, true) else (db, false)
  else (db, true)

/-- src/sdbm.c:384 `getpage`.  The table `masks` has the entries `2 ^ hbit - 1` for `hbit`
up to 31. -/
def getpage (db : Db P) (hash : Nat) : Option (Db P × Bool) :=
  (trie hash 32 db 0 0).map fun r =>
    let db := { r.1 with curbit := r.2.1, hmask := 2 ^ r.2.2 - 1 }
    loadPage ops db (hash &&& db.hmask)

/-- Write the page in memory (src/sdbm.c:202, 254, 308, 335). -/
def flush (db : Db P) : Db P :=
  { db with pagf := db.pagf.write db.pagbno.toNat db.pagbuf, pos := db.pagbno.toNat + 1 }

/-- src/sdbm.c:173 `sdbm_fetch`. -/
def fetch (db : Db P) (key : Bytes) : Option (Db P × Option Bytes) :=
  if key.length ≤ 0 then some (db, none)
  else
    (getpage ops db (hash key)).map fun r =>
      if r.2 then (r.1, ops.get r.1.pagbuf key) else ({ r.1 with ioerr := true }, none)

/-- src/sdbm.c:187 `sdbm_delete`. -/
def delete (db : Db P) (key : Bytes) : Option (Db P × Int) :=
  if key.length ≤ 0 then some (db, -1)
  else if db.rdonly then some (db, -1)
  else
    (getpage ops db (hash key)).bind fun r =>
      if r.2 then
        (ops.del r.1.pagbuf key).map fun s =>
          let db := { r.1 with pagbuf := s.1 }
          if s.2 then (flush db, 0) else (db, -1)
      else some ({ r.1 with ioerr := true }, -1)

/-- src/sdbm.c:294 the page in memory was split into two: the twin page is written, or
becomes the page in memory when the hash selects it. -/
def place (db : Db P) (hash : Nat) (twin : P) : Db P :=
  let newp := (hash &&& db.hmask) ||| (db.hmask + 1)
  if hash &&& (db.hmask + 1) ≠ 0 then { flush db with pagbno := newp, pagbuf := twin }
  else { db with pagf := db.pagf.write newp twin, pos := newp + 1 }

/-- src/sdbm.c:290 one split of the page in memory. -/
def splitOnce (db : Db P) (hash : Nat) : Option (Db P) :=
  (ops.split db.pagbuf (db.hmask + 1)).map fun s => setdbit (place { db with pagbuf := s.1 } hash s.2) db.curbit

/-- src/sdbm.c:330 between two splits. -/
def deepen (db : Db P) (hash : Nat) : Db P :=
  flush { db with
    curbit := 2 * db.curbit + if hash &&& (db.hmask + 1) ≠ 0 then 2 else 1
    hmask := db.hmask ||| (db.hmask + 1) }

/-- src/sdbm.c:275 `makroom`; the number is `smax`. -/
def makroom (hash : Nat) (need : Int) : Nat → Db P → Option (Db P × Bool)
  | 0, db => some (db, false)
  | smax + 1, db =>
      (splitOnce ops db hash).bind fun db =>
        if ops.fit db.pagbuf need then some (db, true)
        else makroom hash need smax (deepen db hash)

/-- src/sdbm.c:240 the pair to be replaced is removed from the page in memory, or looked
for if it is not to be replaced. -/
def prepare (db : Db P) (key : Bytes) (replace : Bool) : Option (Db P × Bool) :=
  if replace then (ops.del db.pagbuf key).map fun s => ({ db with pagbuf := s.1 }, false)
  else some (db, ops.dup db.pagbuf key)

/-- src/sdbm.c:253 the pair is put into the page in memory, which is written. -/
def insert (db : Db P) (key val : Bytes) : Option (Db P × Int) :=
  (ops.put db.pagbuf key val).map fun p => (flush { db with pagbuf := p }, 0)

/-- src/sdbm.c:213 `sdbm_store`, compiled with `SEEDUPS` (src/sdbm_tune.h:26); `PAIRMAX` is
1008 and `SPLTMAX` is 10. -/
def store (db : Db P) (key val : Bytes) (replace : Bool) : Option (Db P × Int) :=
  if key.length ≤ 0 then some (db, -1)
  else if db.rdonly then some (db, -1)
  else
    let need : Int := key.length + val.length
    if need > 1008 then some (db, -1)
    else
      (getpage ops db (hash key)).bind fun r =>
        if r.2 then
          (prepare ops r.1 key replace).bind fun s =>
            if s.2 then some (s.1, 1)
            else if ops.fit s.1.pagbuf need then insert ops s.1 key val
            else
              (makroom ops (hash key) need 10 s.1).bind fun t =>
                if t.2 then insert ops t.1 key val else some ({ t.1 with ioerr := true }, -1)
        else some ({ r.1 with ioerr := true }, -1)

/-- src/sdbm.c:484 `getnext`; the number bounds the rounds of the loop, and `none` is a
loop that went on. -/
def getnext : Nat → Db P → Option (Db P × Option Bytes)
  | 0, _ => none
  | fuel + 1, db =>
      let db := { db with keyptr := db.keyptr + 1 }
      match ops.nkey db.pagbuf db.keyptr with
      | some key => some (db, some key)
      | none =>
          let pos := if db.pagbno ≠ db.blkptr then db.blkptr + 1 else db.pos
          let db := { db with keyptr := 0, blkptr := db.blkptr + 1, pagbno := db.blkptr + 1 }
          match db.pagf.read ops.zero pos with
          | none => some ({ db with pos := pos, ioerr := true }, none)
          | some p =>
              let db := { db with pagbuf := p, pos := pos + 1 }
              if ops.chk p then getnext fuel db else some ({ db with ioerr := true }, none)

/-- src/sdbm.c:372 `sdbm_nextkey`. -/
def nextkey (db : Db P) : Option (Db P × Option Bytes) := getnext ops (db.pagf.size + 3) db

/-- src/sdbm.c:353 `sdbm_firstkey`. -/
def firstkey (db : Db P) : Option (Db P × Option Bytes) :=
  let db := match db.pagf.read ops.zero 0 with
    | none => { db with pos := 0 }
    | some p => { db with pos := 1, pagbuf := p }
  getnext ops (db.pagf.size + 3) { db with pagbno := 0, blkptr := 0, keyptr := 0 }

/-- The calls of the Lisp interface, on one database. -/
inductive Cmd where
  /-- src/repsdbm.c:92 `sdbm-fetch`. -/
  | fetch (key : Bytes)
  /-- src/repsdbm.c:109 `sdbm-store`; `replace` unless the fourth argument is `insert`. -/
  | store (key val : Bytes) (replace : Bool)
  /-- src/sdbm.c:187 `sdbm_delete`, which has the name `erase` here.  The Lisp function is
  `delete`. -/
  | erase (key : Bytes)
  /-- src/repsdbm.c:128 `sdbm-delete`. -/
  | delete (key : Bytes)
  /-- src/repsdbm.c:141 `sdbm-firstkey`. -/
  | firstkey
  /-- src/repsdbm.c:155 `sdbm-nextkey`. -/
  | nextkey
  /-- src/repsdbm.c:78 `sdbm-close`, then src/repsdbm.c:33 `sdbm-open` of the same file,
  with access type `append`, or with one that is neither `append` nor `write`. -/
  | reopen (rdonly : Bool)

/-- What a call returns: a string or nil, or t or nil. -/
inductive Res where
  | str (s : Option Bytes)
  | bool (b : Bool)
  deriving DecidableEq

/-- One call.  A string's contents are followed by a NUL byte in memory
(src/values.c: `rep_string_dupn`), and src/repsdbm.c:137 gives `sdbm_delete` a length one
greater than that of the string. -/
def exec (db : Db P) : Cmd → Option (Db P × Res)
  | .fetch key => (fetch ops db key).map fun r => (r.1, .str r.2)
  | .store key val replace => (store ops db key val replace).map fun r => (r.1, .bool (r.2 == 0))
  | .erase key => (delete ops db key).map fun r => (r.1, .bool (r.2 == 0))
  | .delete key => (delete ops db (key ++ [0])).map fun r => (r.1, .bool (r.2 == 0))
  | .firstkey => (firstkey ops db).map fun r => (r.1, .str r.2)
  | .nextkey => (nextkey ops db).map fun r => (r.1, .str r.2)
  | .reopen rdonly => some (prep ops db.pagf db.dirf rdonly, .bool true)

/-- A history of calls, with their results. -/
def run : Db P → List Cmd → Option (Db P × List Res)
  | db, [] => some (db, [])
  | db, c :: cs => (exec ops db c).bind fun r => (run r.1 cs).map fun s => (s.1, r.2 :: s.2)

/-- src/repsdbm.c:33 `sdbm-open` with access type `write`: both files are empty. -/
def create : Db P := prep ops File.empty File.empty false

end Rep.Sdbm
