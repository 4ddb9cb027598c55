/-
Files inside TAR archives: lisp/rep/io/file-handlers/tar.jl, and `file-modes-as-string` of src/unix_files.c.

Not modelled: the program tar and the regular expression for its lines (a parameter `parse`), the expansion of names
(names are taken as expanded), copying members out, open files.
-/

namespace Rep.Tar

abbrev Str := List Char

/-- `tarfh-list-type-alist` (tar.jl:82-84) -/
inductive Kind where
  | file | directory | symlink | other
deriving DecidableEq, Repr

/-- The vector of a member (tar.jl:173-183), without owner, size and time. -/
structure Entry where
  /-- `tarfh-file-name` -/
  name : Str
  kind : Kind
  /-- `tarfh-file-modes-string` -/
  modes : Str
  /-- `tarfh-file-symlink` -/
  link : Str
deriving DecidableEq, Repr

/-- What may come of a line: `tarfh-parse-list` (tar.jl:209-229) gives a vector or signals an error (`none`). Simplified: it
is a function of the line. -/
abbrev Parse := Str → Option Entry

/-- An element of `tarfh-dir-cache` (tar.jl:185-188) -/
structure Cached where
  tarfile : Str
  modtime : Nat
  entries : List Entry
deriving DecidableEq, Repr

/-- The loop of `tarfh-output-function` (tar.jl:199-206) over the text from `point` on; `acc` is the part of the line before
it, reversed. Gives the entries, latest first, the rest of the text, and whether there was an error. -/
def outLoop (parse : Parse) : Str → Str → List Entry → List Entry × Str × Bool
  | [], acc, es => (es, acc.reverse, false)
  | '\n' :: s, acc, es =>
    match parse acc.reverse with
    | some e => outLoop parse s [] (e :: es)
    | none => (es, [], true)
  | c :: s, acc, es => outLoop parse s (c :: acc) es

/-- `tarfh-output-function` (tar.jl:192-207): `pending` is `tarfh-pending-output`, with `[]` for nil. -/
def output (parse : Parse) (pending : Str) (es : List Entry) (string : Str) : List Entry × Str × Bool :=
  outLoop parse (pending ++ string) [] es

/-- The calls of the output function while tar runs (tar.jl:318-320), one for each string that arrives; an error ends it. -/
def outputs (parse : Parse) : List Str → Str → List Entry → List Entry × Str × Bool
  | [], pending, es => (es, pending, false)
  | s :: l, pending, es =>
    match output parse pending es s with
    | (es, p, true) => (es, p, true)
    | (es, p, false) => outputs parse l p es

/-- `tarfh-dir-cache` and `tarfh-pending-output` -/
structure State where
  cache : List Cached := []
  pending : Str := []
deriving DecidableEq, Repr

/-- `tarfh-max-cached-dirs` (tar.jl:86) -/
def maxCached : Nat := 5

/-- `(setcdr (nthcdr (1- (length tarfh-dir-cache)) tarfh-dir-cache) nil)` (tar.jl:313-314): the pairs up to and with the one
of the index given to `nthcdr` stay. -/
def evict (c : List Cached) : List Cached :=
  if c.length ≥ maxCached then c.take (c.length - 1 + 1) else c

/-- What `tarfh-get-file` gives. -/
inductive Res where
  | ok (e : Option Entry)
  | error
deriving DecidableEq, Repr

/-- `tarfh-get-file` (tar.jl:298-330), for an archive that was modified at `modtime` and whose listing comes in the strings
`chunks`. -/
def getFile (parse : Parse) (st : State) (tarfile : Str) (modtime : Nat) (chunks : List Str) (name : Str) : State × Res :=
  let hit := st.cache.find? fun c => c.tarfile = tarfile
  let rest := st.cache.filter fun c => c.tarfile ≠ tarfile
  let found (es : List Entry) := Res.ok (es.find? fun e => e.name = name)
  let fresh : State × Res :=
    match outputs parse chunks st.pending [] with
    | (es, p, true) => (⟨⟨tarfile, modtime, es⟩ :: evict rest, p⟩, .error)
    | (es, p, false) => (⟨⟨tarfile, modtime, es.reverse⟩ :: evict rest, p⟩, found es.reverse)
  match hit with
  | some c => if c.modtime = modtime then (⟨c :: rest, st.pending⟩, found c.entries) else fresh
  | none => fresh

/-- `tarfh-lookup-file` (tar.jl:333-342): links are followed; `resolve` stands for the expansion of the text of a link in the
directory of the file. `none` when it does not come to an end in `fuel` steps. -/
def lookup (es : List Entry) (resolve : Str → Str → Str) : Nat → Str → Option (Option Entry)
  | 0, _ => none
  | fuel + 1, name =>
    match es.find? fun e => e.name = name with
    | none => some none
    | some e => if e.kind = .symlink then lookup es resolve fuel (resolve e.link name) else some (some e)

/-- One step of the loop of `tarfh-directory-files` (tar.jl:266-271): the name is matched with the quoted directory followed
by `([^/]+)`. -/
def dirStep (dir : Str) (files : List Str) (e : Entry) : List Str :=
  if dir.isPrefixOf e.name then
    let tem := (e.name.drop dir.length).takeWhile (· ≠ '/')
    if tem = [] then files else if tem ∈ files then files else tem :: files
  else files

/-- `tarfh-directory-files` (tar.jl:258-273), `dir` being the name of the directory with its slash. -/
def directoryFiles (es : List Entry) (dir : Str) : List Str := es.foldl (dirStep dir) []

/-- `tarfh-split-filename` (tar.jl:368-371): the leftmost match of `#tar/?`. -/
def split : Str → Option (Str × Str)
  | [] => none
  | '#' :: 't' :: 'a' :: 'r' :: '/' :: s => some ([], s)
  | '#' :: 't' :: 'a' :: 'r' :: s => some ([], s)
  | c :: s => (split s).map fun p => (c :: p.1, p.2)

/-- The permission bits of a file: for owner, group and others, read, write, execute and the special bit. -/
structure Triple where
  r : Bool
  w : Bool
  x : Bool
  s : Bool
deriving DecidableEq, Repr

/-- The mode word of three triples (`st_mode`, sys/stat.h). -/
def word (o g t : Triple) : Nat :=
  let b (x : Bool) (n : Nat) := if x then n else 0
  b o.s 0o4000 + b g.s 0o2000 + b t.s 0o1000 + b o.r 0o400 + b o.w 0o200 + b o.x 0o100 +
    b g.r 0o40 + b g.w 0o20 + b g.x 0o10 + b t.r 4 + b t.w 2 + b t.x 1

/-- The loop of `rep_file_modes_as_string` (unix_files.c:511-527), the string being filled with dashes. -/
def showTriple (perms i : Nat) : Str :=
  let xperms := perms >>> ((2 - i) * 3)
  let c := if xperms &&& 1 ≠ 0 then 'x'.toNat else 0
  let extra := if i = 2 then 'T'.toNat else 'S'.toNat
  let c := if perms &&& (0o4000 >>> i) ≠ 0 then extra ||| (c &&& 0x20) else c
  [if xperms &&& 4 ≠ 0 then 'r' else '-', if xperms &&& 2 ≠ 0 then 'w' else '-', if c ≠ 0 then Char.ofNat c else '-']

/-- `rep_file_modes_as_string` (unix_files.c:495-530) for a file of the type whose character is `c`. -/
def modesAsString (c : Char) (perms : Nat) : Str := c :: (showTriple perms 0 ++ showTriple perms 1 ++ showTriple perms 2)

/-- `tuple-function` of `tarfh-file-get-modes` (tar.jl:243-251) -/
def tuple (s : Str) (point tuple : Nat) : Nat :=
  let at' (n : Nat) := s.getD n ' '
  ((if at' point ≠ '-' then 4 else 0) + (if at' (point + 1) ≠ '-' then 2 else 0) + (if (at' (point + 2)).isLower then 1 else 0))
    <<< (tuple * 3) + (if at' (point + 2) ∈ ['s', 'S', 't', 'T'] then 0o1000 <<< tuple else 0)

/-- `tarfh-file-get-modes` (tar.jl:239-256) -/
def getModes (s : Str) : Nat := tuple s 1 2 + tuple s 4 1 + tuple s 7 0

end Rep.Tar
