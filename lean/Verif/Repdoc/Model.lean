/-!
# The program repdoc

Models `scanfile` (src/repdoc.c:38-77), which collects the documentation in source files.

Simplifications: files hold no NUL characters; storing succeeds; the names of the files and the opening of the data base are left out.
-/
namespace Rep.Repdoc

abbrev Str := List Char

/-- What `fgets` reads if it may read `n` characters, and what it leaves. -/
def takeLine : Nat → Str → Str × Str
  | 0, s => ([], s)
  | _ + 1, [] => ([], [])
  | n + 1, c :: r => if c = '\n' then (['\n'], r) else ((c :: (takeLine n r).1), (takeLine n r).2)

/-- `fgets (buf, n, src)`; with room for the zero only, it reads nothing and succeeds. -/
def fgets (n : Nat) (src : Str) : Option (Str × Str) :=
  if n ≤ 1 then some ([], src)
  else if src = [] then none
  else some (takeLine (n - 1) src)

/-- `strstr`: what is before and what is after the first place where `p` occurs. -/
def strstr (p : Str) : Str → Option (Str × Str)
  | [] => if p = [] then some ([], []) else none
  | c :: r =>
    if p.isPrefixOf (c :: r) then some ([], (c :: r).drop p.length)
    else
      match strstr p r with
      | some (a, b) => some (c :: a, b)
      | none => none

def docMark : Str := "::doc:".toList
def colons : Str := "::".toList
def endMark : Str := "::end::".toList

inductive Out (α : Type)
  | ok (a : α)
  /-- the loop never ends -/
  | hang
  deriving DecidableEq

/-- `sizeof (buf)` of the outer buffer, repdoc.c:41 -/
def lineSize : Nat := 512

/-- `sizeof (buf)` of the inner buffer, repdoc.c:48 -/
def textSize : Nat := 16384

/-- repdoc.c:57-63: `out` is what was collected; the first argument need not be more than the number of characters left, and one. If there is
room for the zero only, nothing is read, no mark is found and the loop goes on as before. -/
def collect : Nat → Str → Str → Out (Str × Str)
  | 0, src, out => .ok (out, src)
  | f + 1, src, out =>
    if textSize - out.length ≤ 1 then .hang
    else
      match fgets (textSize - out.length) src with
      | none => .ok (out, src)
      | some (l, src) => if (strstr endMark l).isSome then .ok (out, src) else collect f src (out ++ l)

/-- The data base. -/
abbrev Db := Str → Option Str

/-- `gdbm_store` with `GDBM_REPLACE` -/
def store (db : Db) (k v : Str) : Db := fun x => if x = k then some v else db x

/-- repdoc.c:42-76; the first argument need not be more than the number of characters left, and one. -/
def scan : Nat → Str → Db → Out Db
  | 0, _, db => .ok db
  | f + 1, src, db =>
    match fgets lineSize src with
    | none => .ok db
    | some (l, src) =>
      match strstr docMark l with
      | none => scan f src db
      | some (_, id) =>
        match strstr colons id with
        | none => scan f src db
        | some (id, _) =>
          match collect (src.length + 1) src [] with
          | .hang => .hang
          | .ok (out, src) => scan f src (store db id out.dropLast)

/-- `scanfile` -/
def scanfile (src : Str) (db : Db) : Out Db := scan (src.length + 1) src db

end Rep.Repdoc
