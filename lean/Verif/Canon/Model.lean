/-
Canonical names of files: the `realpath` that is compiled where the system has none
(src/realpath.c, configure.ac:297) and `canonical-file-name` (src/unix_files.c:208-227).  Simplified:
the file system does not change in the meantime, `lstat`, `readlink` and `getcwd` fail for no other
reasons than the ones given, and memory is not exhausted.  Names have no null character.
-/

namespace Rep.Canon

abbrev Text := List Char
abbrev Name := List Char

/-- What `lstat` and `readlink` tell. -/
inductive Node
  | dir
  | file
  | link (target : Text)
  deriving DecidableEq

/-- Files by the names on the way from the root; the current directory; PATH_MAX and MAXSYMLINKS. -/
structure World where
  node : List Name → Option Node
  cwd : List Name
  pathMax : Nat
  maxLinks : Nat

/-- The pieces of a text between slashes. -/
def split : Text → List Name
  | [] => [[]]
  | c :: s =>
    if c = '/' then [] :: split s
    else match split s with
      | [] => [[c]]
      | h :: t => (c :: h) :: t

/-- The components of a name. -/
def comps (s : Text) : List Name := (split s).filter (· ≠ [])

/-- The text of the name of the file at a place. -/
def show_ (p : List Name) : Text :=
  if p = [] then ['/'] else p.flatMap fun n => '/' :: n

/-- The variables of `realpath` (realpath.c:81-84): `text` is from `rpath` up to `dest`, `nuls` are the
places in `rpath` where there is a null character, `rest` is from `end`. -/
structure St where
  text : Text
  nuls : List Nat
  rest : Text
  links : Nat
  deriving DecidableEq

inductive Out
  | ok (t : Text)
  | error
  /-- `strcpy` from a buffer that has no null character -/
  | overrun
  | more (s : St)
  deriving DecidableEq

/-- `while ((--dest)[-1] != '/')` if not at the root (realpath.c:130-131, 197-198). -/
def back (t : Text) : Text :=
  if 1 < t.length then (t.reverse.tail.dropWhile (· ≠ '/')).reverse else t

/-- The end (realpath.c:204-208). -/
def finish (t : Text) : Text :=
  if 1 < t.length ∧ t.getLast? = some '/' then t.dropLast else t

/-- `lstat (rpath)`: no component but the last is a link. -/
def lstat (w : World) (t : Text) : Option Node := w.node (comps t)

/-- One pass of the loop (realpath.c:113-203), with `resolved` given. -/
def step (w : World) (s : St) : Out :=
  let r := s.rest.dropWhile (· = '/')
  let c := r.takeWhile (· ≠ '/')
  let e := r.dropWhile (· ≠ '/')
  if c = [] then .ok (finish s.text)
  else if c = ['.'] then .more { s with rest := e }
  else if c = ['.', '.'] then .more { s with text := back s.text, rest := e }
  else
    let slash := s.text.getLast? ≠ some '/'
    let t := if slash then s.text ++ ['/'] else s.text
    let nuls := if slash then s.nuls.filter (· ≠ s.text.length) else s.nuls
    if w.pathMax ≤ t.length + c.length then
      if nuls.any (t.length ≤ ·) then .error else .overrun
    else
      let t' := t ++ c
      let nuls := t'.length :: nuls.filter (t'.length < ·)
      match lstat w t' with
      | none => .error
      | some (.link l) =>
        if w.maxLinks < s.links + 1 then .error
        else if w.pathMax ≤ l.length + e.length then .error
        else .more ⟨if (l ++ e).head? = some '/' then ['/'] else back t', nuls, l ++ e, s.links + 1⟩
      | some _ => .more ⟨t', nuls, e, 0⟩

/-- The start (realpath.c:97-111). -/
def start (w : World) (name : Text) : St :=
  if name.head? = some '/' then ⟨['/'], [], name, 0⟩
  else ⟨show_ w.cwd, [(show_ w.cwd).length], name, 0⟩

/-- At most so many passes of the loop. -/
def loop (w : World) : Nat → St → Out
  | 0, s => .more s
  | n + 1, s => match step w s with
    | .more s => loop w n s
    | o => o

def realpath (w : World) (n : Nat) (name : Text) : Out := loop w n (start w name)

/-- The loop that removes slashes (unix_files.c:220-225). -/
def strip (t : Text) : Text := (t.reverse.dropWhile (· = '/')).reverse

/-- `rep_canonical_file_name` (unix_files.c:208-227); `overrun` also when `strncpy` leaves no null
character in its buffer. -/
def canonical (w : World) (n : Nat) (name : Text) : Out :=
  match realpath w n name with
  | .ok t => .ok (strip t)
  | .error => if w.pathMax ≤ name.length then .overrun else .ok (strip name)
  | o => o

end Rep.Canon
