import Verif.FileName.Model
/-
Names of files on other machines, "/USER@HOST:FILE": lisp/rep/io/file-handlers/remote/utils.jl, and what the handler of
lisp/rep/io/file-handlers/remote.jl does with names.

Simplified: `string-match` with the regular expression `^/(([a-zA-Z0-9._-]+)@)?([a-zA-Z0-9._-]+):` is written as a scanner: the
sets contain neither `@` nor `:`, so there is only one way to match.  The names after `~/` and the parts FILE are not themselves
names of this form, nor do they contain "#tar".
-/

namespace Rep.FileName.Remote

/-- `[a-zA-Z0-9._-]` (utils.jl:46) -/
def inSet (c : Char) : Bool :=
  (97 ≤ c.toNat && c.toNat ≤ 122) || (65 ≤ c.toNat && c.toNat ≤ 90) || (48 ≤ c.toNat && c.toNat ≤ 57) || c == '.' || c == '_' || c == '-'

structure Split where
  user : Option Str
  host : Str
  file : Str
  deriving DecidableEq

/-- `([a-zA-Z0-9._-]+):`, and what follows it. -/
def hostPart (s : Str) : Option (Str × Str) :=
  if s.takeWhile inSet = [] then none
  else
    match s.dropWhile inSet with
    | ':' :: r => some (s.takeWhile inSet, r)
    | _ => none

/-- `remote-split-filename` (utils.jl:55-64), nothing if it signals an error. -/
def split (s : Str) : Option Split :=
  match s with
  | '/' :: r =>
    match r.dropWhile inSet with
    | '@' :: r' =>
      if r.takeWhile inSet = [] then none
      else
        match hostPart r' with
        | some (h, f) => some ⟨some (r.takeWhile inSet), h, f⟩
        | none => none
    | _ =>
      match hostPart r with
      | some (h, f) => some ⟨none, h, f⟩
      | none => none
  | _ => none

/-- `remote-join-filename` (utils.jl:67-68) -/
def join (user : Option Str) (host file : Str) : Str :=
  '/' :: ((match user with
    | some u => u ++ ['@']
    | none => []) ++ host ++ ':' :: file)

/-- `file-name-nondirectory` (files.c:503-520, remote.jl:77-78) -/
def nondirectoryOp (s : Str) : Str :=
  match split s with
  | some p => nondirectory p.file
  | none => nondirectory s

/-- `file-name-directory` (files.c:522-539, remote.jl:80-82) -/
def directoryOp (s : Str) : Str :=
  match split s with
  | some p => join p.user p.host (directory p.file)
  | none => directory s

/-- `file-name-as-directory` (files.c:541-558, remote.jl:84-88) -/
def asDirectoryOp (s : Str) : Str :=
  match split s with
  | some p => join p.user p.host (if p.file = [] then [] else asDirectory p.file)
  | none => asDirectory s

/-- `directory-file-name` (files.c:560-578, remote.jl:90-92) -/
def directoryFileNameOp (s : Str) : Str :=
  match split s with
  | some p => join p.user p.host (directoryFileName p.file)
  | none => directoryFileName s

/-- `file-name-absolute-p` (files.c:377-394, remote.jl:56) -/
def absoluteOp (s : Str) : Bool :=
  match split s with
  | some _ => true
  | none => absoluteP s

/-- files.c:426-442: the name in the directory. -/
def atDirOp (s dir : Str) : Str :=
  if absoluteOp s then s
  else if (asDirectoryOp dir).length > 0 then asDirectoryOp dir ++ s else s

/-- `expand-file-name` (files.c:396-454, remote.jl:73-75) -/
def expandOp (s dir : Str) : Res Str :=
  let s := atDirOp s dir
  match split s with
  | some p =>
    match expandFileName p.file ['.'] with
    | .ok t => .ok (join p.user p.host t)
    | .overflow => .overflow
  | none =>
    match s with
    | '~' :: _ => tildeExpand s
    | _ => expandRaw s

end Rep.FileName.Remote
