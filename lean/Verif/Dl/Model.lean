/-
Model of the loading of shared libraries (src/unix_dl.c).  The contents of the libraries are
arbitrary: what a library requires and what its function `rep_dl_init` does are programs that load
other libraries and go on in a way that depends on whether that succeeded.

Simplifications: file names are numbers, one name for each library; the reading of libtool files is
reduced to its result (the required structures, whether the library can be opened); what programs
do apart from loading libraries is left out; memory does not run out.
-/

namespace Rep.Dl

/-- What a program returns: an error, or success, for an initialisation with the name of a feature or
structure. -/
inductive Ret where
  | fail
  | ok (feature : Option Nat)
  deriving DecidableEq, Repr

/-- Programs that load libraries: `k` is told whether the library could be loaded. -/
inductive Prog where
  | done (r : Ret)
  | load (f : Nat) (k : Bool → Prog)

/-- A library file. -/
structure Desc where
  /-- the structures to be loaded first (`rep_requires=`) -/
  requires : Prog
  /-- whether `dlopen` succeeds -/
  opens : Bool
  /-- the function `rep_dl_init` -/
  init : Option Prog
  /-- whether it has a function `rep_dl_kill` -/
  kill : Bool

/-- The files; none where there is no file. -/
abbrev World := Nat → Option Desc

/-- `struct dl_lib_info` (unix_dl.c:117-123). -/
structure Lib where
  file : Nat
  feature : Option Nat
  deriving DecidableEq, Repr

/-- What happens to libraries. -/
inductive Event where
  | opened (f : Nat)
  | init (f : Nat)
  | closed (f : Nat)
  | kill (f : Nat)
  deriving DecidableEq, Repr

/-- `dl_libs`, `n_alloc_dl_libs` (unix_dl.c:125-126), and what has happened. -/
structure State where
  libs : List Lib
  cap : Nat
  log : List Event
  deriving Repr

def State.start : State := { libs := [], cap := 0, log := [] }

inductive Res (α : Type) where
  | ok (s : State) (r : α)
  /-- undefined behaviour -/
  | ub
  deriving Repr

/-- `find_dl` (unix_dl.c:162-178). -/
def find (f : Nat) : Nat → List Lib → Option Nat
  | _, [] => none
  | i, x :: xs => if x.file = f then some i else find f (i + 1) xs

/-- A program that loads libraries with `ld` (`load_requires`, unix_dl.c:200-214, or
`init_func`). -/
def run (ld : Nat → State → Option (Res (Option Nat))) : Prog → State → Option (Res Ret)
  | .done r, s => some (.ok s r)
  | .load f k, s => match ld f s with
    | none => none
    | some .ub => some .ub
    | some (.ok s' i) => run ld (k i.isSome) s'

/-- Room for another library (unix_dl.c:345-361): the array may be moved. -/
def grow (s : State) : Nat := if s.cap = s.libs.length then max (s.cap * 2) 32 else s.cap

/-- `rep_intern_dl_library` (unix_dl.c:225-410); an answer of none is that the call has not returned
after `n` nested calls.  The pointer to the new entry is used after `rep_dl_init` to store the
feature; if the array was moved meanwhile, this is undefined.  After a failed initialisation the
number of libraries is decremented. -/
def load (W : World) : Nat → Nat → State → Option (Res (Option Nat))
  | 0, _, _ => none
  | n + 1, f, s => match find f 0 s.libs with
    | some i => some (.ok s (some i))
    | none => match W f with
      | none => some (.ok s none)
      | some d => match run (load W n) d.requires s with
        | none => none
        | some .ub => some .ub
        | some (.ok s1 .fail) => some (.ok s1 none)
        | some (.ok s1 (.ok _)) =>
          if d.opens then
            let idx := s1.libs.length
            let s2 : State := { libs := s1.libs ++ [{ file := f, feature := none }], cap := grow s1,
                                log := s1.log ++ [.opened f] }
            match d.init with
            | none => some (.ok s2 (some idx))
            | some p => match run (load W n) p { s2 with log := s2.log ++ [.init f] } with
              | none => none
              | some .ub => some .ub
              | some (.ok s3 .fail) =>
                  some (.ok { s3 with libs := s3.libs.dropLast, log := s3.log ++ [.closed f] } none)
              | some (.ok s3 (.ok none)) => some (.ok s3 (some idx))
              | some (.ok s3 (.ok (some y))) =>
                  if s3.cap ≠ s2.cap then some .ub
                  else some (.ok { s3 with libs := s3.libs.modify idx fun x => { x with feature := some y } } (some idx))
          else some (.ok s1 none)

/-- `rep_kill_dl_libraries` (unix_dl.c:459-493). -/
def killAll (W : World) (s : State) : State :=
  { libs := [], cap := 0,
    log := s.log ++ (s.libs.filter fun x => match W x.file with
      | some d => d.kill
      | none => false).map fun x => Event.kill x.file }

/-- `find_dl_by_feature` (unix_dl.c:180-198). -/
def findFeature (y : Nat) : Nat → List Lib → Option Nat
  | _, [] => none
  | i, x :: xs => if x.feature = some y then some i else findFeature y (i + 1) xs

/-- `rep_find_dl_symbol` (unix_dl.c:495-508): the library in which a symbol is looked up. -/
def symbolLib (s : State) (y : Nat) : Option Nat :=
  match findFeature y 0 s.libs with
  | none => none
  | some 0 => none
  | some i => (s.libs[i]?).map Lib.file

end Rep.Dl
