/-
Loading libraries: `load`, `require`, `provide`, `open-structures`,
`make-structure` and the functions called after a library was loaded.

Programs are lists of commands; an ordinary form is a command `emit`.  The
library is a function giving the contents of the file that the search of
Verif/Load/Search finds for an argument of `load`.
-/

namespace Rep.Load

/-- Forms of a program. -/
inductive Cmd
  /-- a form whose effect is to record `k`; its value is not a structure -/
  | emit (k : Nat)
  /-- a form that signals an error -/
  | fail
  | provide (f : String)
  | require (f : String)
  | load (file : String) (noError : Bool)
  /-- `(call-after-load FILE THUNK)` -/
  | after (file : String) (thunk : Nat)
  /-- `(open-structures '(NAME...))` -/
  | «open» (ms : List String)
  /-- `(define-structure NAME () (open NAMES...) FORMS...)`, or `structure` -/
  | define (name : Option String) (opens : List String) (body : List Cmd)
  /-- `(condition-case () (progn FORMS...) (error ()))` -/
  | «try» (body : List Cmd)

/-- A file: its forms, and whether a syntax error follows them. -/
structure File where
  forms : List Cmd
  bad : Bool

/-- What happens. -/
inductive Event
  | emit (k : Nat)
  /-- a file is opened by `load` -/
  | «begin» (file : String)
  /-- a structure with a name is made; its body is begun; it is complete; an error
  ended that -/
  | start (name : String)
  | body (name : String)
  | done (name : String)
  | failed (name : String)
  /-- thunk number `id` is registered for a library -/
  | reg (lib : String) (id : Nat)
  /-- the `n`th load has read the library; and returns -/
  | read (n : Nat) (lib : String)
  | ret (n : Nat) (lib : String)
  /-- the `n`th load calls thunk number `id` -/
  | call (n : Nat) (id : Nat)
  /-- the call ended with an error -/
  | broken (id : Nat)
  /-- a syntax error in a file -/
  | bad
  deriving DecidableEq, Repr

/-- A registered function: its number, the structure it was made in, and which of
the functions of the program it is. -/
structure Thunk where
  id : Nat
  cur : Nat
  fn : Nat
  deriving DecidableEq

/-- `rep_struct` (src/rep_lisp.h): its name, the value of its variable
`*features*` and its imports.  Bindings: Verif/Modules. -/
structure Struct where
  name : Option String
  features : List String
  imports : List String

/-- The state: structures by number, the names of structures (latest first), the
variable `after-load-alist`, `rep_throw_value`, and counters and the record of
events that are not part of the program. -/
structure St where
  structs : List Struct
  names : List (String × Option Nat)
  afters : List (String × List Thunk)
  throw : Bool
  regs : Nat
  loads : Nat
  log : List Event

/-- The value of a C function: `rep_NULL`, a structure, or another object. -/
inductive Val
  | null
  | obj
  | struct (i : Nat)
  deriving DecidableEq

/-- `rep_structure_file` (src/unix_files.c:617-636). -/
def structureFile (x : String) : String := x.map fun c => if c = '.' then '/' else c

/-- `Fget_structure` (src/structures.c:642-655). -/
def St.get (st : St) (x : String) : Option Nat := (st.names.lookup x).join

def St.note (st : St) (e : Event) : St := { st with log := st.log ++ [e] }

def St.noteName (st : St) (e : String → Event) : Option String → St
  | some x => st.note (e x)
  | none => st

/-- `Fsignal`. -/
def St.signal (st : St) : St := { st with throw := true }

def St.updateStruct (st : St) (i : Nat) (f : Struct → Struct) : St :=
  { st with structs := st.structs.modify i f }

/-- `Ffeaturep` (structures.c:1382-1394). -/
def St.featurep (st : St) (cur : Nat) (f : String) : Bool :=
  match st.structs[cur]? with
  | some s => s.features.contains f
  | none => false

/-- Is the name among the imports? -/
def St.importp (st : St) (cur : Nat) (f : String) : Bool :=
  match st.structs[cur]? with
  | some s => s.imports.contains f
  | none => false

/-- `Fprovide` (structures.c:1396-1414). -/
def St.provide (st : St) (cur : Nat) (f : String) : St :=
  st.updateStruct cur fun s =>
    { s with features := if s.features.contains f then s.features else f :: s.features }

def St.importName (st : St) (cur : Nat) (f : String) : St :=
  st.updateStruct cur fun s => { s with imports := f :: s.imports }

/-- `Fname_structure` with a name (structures.c:657-676). -/
def St.nameStruct (st : St) (i : Nat) (x : String) : St :=
  { st.updateStruct i (fun s => { s with name := s.name.or (some x) }) with
    names := (x, some i) :: st.names }

/-- `Fname_structure` with no name, when a structure could not be made
(structures.c:677-682, 772-779). -/
def St.unname (st : St) : Option String → St
  | some x => { st with names := (x, none) :: st.names }
  | none => st

/-- A new structure (structures.c:724-746); it has its name from the start. -/
def St.newStruct (st : St) (name : Option String) : St :=
  { st with
    structs := st.structs ++ [⟨name, [], []⟩]
    names := match name with
      | some x => (x, some st.structs.length) :: st.names
      | none => st.names }

/-- Adding a function to an entry of the list (lisp/rep/io/files.jl:59-67). -/
def addAfter (file : String) (t : Thunk) : List (String × List Thunk) →
    Option (List (String × List Thunk))
  | [] => none
  | (k, ts) :: rest =>
    if k = file then some ((k, t :: ts) :: rest)
    else (addAfter file t rest).map ((k, ts) :: ·)

/-- `call-after-load` (files.jl:59-67). -/
def St.callAfterLoad (st : St) (file : String) (cur fn : Nat) : St :=
  { st with
    afters := match addAfter file ⟨st.regs, cur, fn⟩ st.afters with
      | some l => l
      | none => (file, [⟨st.regs, cur, fn⟩]) :: st.afters
    regs := st.regs + 1
    log := st.log ++ [.reg file st.regs] }

/-- Taking an entry out of the list: `Fassoc` and `Fdelq`
(src/lispcmds.c:1507-1514). -/
def takeAfter (file : String) : List (String × List Thunk) →
    Option (List Thunk × List (String × List Thunk))
  | [] => none
  | (k, ts) :: rest =>
    if k = file then some (ts, rest)
    else (takeAfter file rest).map fun r => (r.1, (k, ts) :: r.2)

/-- The name under which functions to be called after a load are looked for
(lispcmds.c:1499-1501). -/
def St.libName (st : St) (file : String) : Val → String
  | .struct i => match st.structs[i]? with
    | some s => s.name.getD file
    | none => file
  | _ => file

/-- A load has read its file; loads are numbered in the order in which they do. -/
def St.noteRead (st : St) (l : String) : St :=
  { st with loads := st.loads + 1, log := st.log ++ [.read st.loads l] }

/-- What is to be run. -/
inductive Job
  /-- forms in a structure, with the value so far -/
  | forms (v : Val) (cs : List Cmd) (cur : Nat)
  | form (c : Cmd) (cur : Nat)
  | load (file : String) (noError : Bool) (cur : Nat)
  /-- the loop calling the functions registered for a library, in the `n`th load -/
  | again (n : Nat) (lib : String)
  | thunks (n : Nat) (ts : List Thunk)
  | opens (ms : List String) (cur : Nat)
  | intern (x : String)

abbrev Out := Option (Val × St)

/-- The end of `apply` (src/lisp.c:1724-1726). -/
def leave (r : Val × St) : Val × St := if r.2.throw then (.null, r.2) else r

/-- `Fload_file` (lispcmds.c:1230-1298) after the file was opened.
Simplification: the file does not go away. -/
def loadFile (self : Job → St → Out) (f : File) (cur : Nat) (st : St) : Out :=
  (self (.forms .obj f.forms cur) st).map fun r =>
    if r.1 ≠ .null ∧ f.bad then (r.1, (r.2.note .bad).signal) else r

/-- `Fload` (lispcmds.c:1329-1536).  Simplification: with an error pending (only
`open-structures` calls it so) nothing happens. -/
def doLoad (lib : String → Option File) (self : Job → St → Out) (file : String)
    (noError : Bool) (cur : Nat) (st : St) : Out :=
  if st.throw then some (.null, st)
  else match lib file with
    | none => some (if noError then (.obj, st) else (.null, st.signal))
    | some f =>
      (loadFile self f cur (st.note (.begin file))).bind fun r =>
        if r.1 = .null then some r
        else
          (self (.again r.2.loads (r.2.libName file r.1))
            (r.2.noteRead (r.2.libName file r.1))).map fun r2 =>
              (r.1, r2.2.note (.ret r.2.loads (r.2.libName file r.1)))

/-- The rest of `Frequire` when there is a structure (structures.c:1455-1460). -/
def requireEnd (f : String) (cur : Nat) (st : St) : Val × St :=
  (.obj, (st.importName cur f).provide cur f)

/-- `Frequire` (structures.c:1416-1463). -/
def doRequire (self : Job → St → Out) (f : String) (cur : Nat) (st : St) : Out :=
  if st.featurep cur f then some (.obj, st)
  else if st.importp cur f then some (.obj, st)
  else match st.get f with
    | some _ => some (requireEnd f cur st)
    | none => (self (.load (structureFile f) false cur) st).map fun r =>
      match r.1 with
      | .null => r
      | .obj => (.obj, r.2)
      | .struct i => requireEnd f cur (r.2.nameStruct i f)

/-- `Fmake_structure` (structures.c:686-779).  Simplification: the header only
opens structures; the module system itself and `%meta` are left out. -/
def doDefine (self : Job → St → Out) (name : Option String) (opens : List String)
    (body : List Cmd) (st : St) : Out :=
  (self (.opens opens st.structs.length) ((st.newStruct name).noteName .start name)).bind
    fun r => match r.1 with
      | .null => some (.null, (r.2.unname name).noteName .failed name)
      | _ =>
        (self (.forms .obj body st.structs.length) (r.2.noteName .body name)).map fun r2 =>
          match r2.1 with
          | .null => (.null, (r2.2.unname name).noteName .failed name)
          | _ => (.struct st.structs.length, r2.2.noteName .done name)

/-- One step; `thunk` gives the functions of the program, `self` runs the rest. -/
def step (lib : String → Option File) (thunk : Nat → List Cmd) (self : Job → St → Out) :
    Job → St → Out
  -- `Fprogn`, and the loop of `Fload_file` (lispcmds.c:1266-1278)
  | .forms v [] _, st => some (v, st)
  | .forms _ (c :: cs) cur, st => (self (.form c cur) st).bind fun r =>
    if r.1 = .null then some r else self (.forms r.1 cs cur) r.2
  -- `rep_eval` (src/lisp.c:1943-1953)
  | .form c cur, st =>
    if st.throw then some (.null, st)
    else match c with
      | .emit k => some (.obj, st.note (.emit k))
      | .fail => some (.null, st.signal)
      | .provide f => some (.obj, st.provide cur f)
      | .require f => (doRequire self f cur st).map leave
      | .load file noError => (self (.load file noError cur) st).map leave
      | .after file k => some (.obj, st.callAfterLoad file cur k)
      | .open ms => (self (.opens ms cur) st).map leave
      | .define name opens body => (doDefine self name opens body st).map leave
      | .try body => (self (.forms .obj body cur) st).map fun r =>
        if r.1 = .null then (.obj, { r.2 with throw := false }) else r
  | .load file noError cur, st => doLoad lib self file noError cur st
  -- lispcmds.c:1504-1529
  | .again n l, st => match takeAfter l st.afters with
    | none => some (.obj, st)
    | some (ts, rest) => (self (.thunks n ts) { st with afters := rest }).bind fun r =>
      self (.again n l) r.2
  -- lispcmds.c:1517-1525
  | .thunks _ [], st => some (.obj, st)
  | .thunks n (t :: ts), st =>
    if st.throw then some (.obj, st)
    else (self (.forms .obj (thunk t.fn) t.cur) (st.note (.call n t.id))).bind fun r =>
      self (.thunks n ts) (if r.1 = .null then r.2.note (.broken t.id) else r.2)
  -- `Fopen_structures` (structures.c:1113-1148)
  | .opens [] _, st => some (.obj, st)
  | .opens (m :: ms) cur, st =>
    if st.importp cur m then self (.opens ms cur) st
    else (self (.intern m) st).bind fun r => match r.1 with
      | .struct _ => self (.opens ms cur) (r.2.importName cur m)
      | _ => some (.null, r.2.signal)
  -- `Fintern_structure` (structures.c:1067-1109); structure 0 is that of the user
  | .intern x, st => match st.get x with
    | some i => some (.struct i, st)
    | none => self (.load (structureFile x) false 0) st

/-- Running; `none`: not finished after `n` nested steps. -/
def run (lib : String → Option File) (thunk : Nat → List Cmd) : Nat → Job → St → Out
  | 0, _, _ => none
  | n + 1, j, st => step lib thunk (run lib thunk n) j st

/-- The state at the start: the structure of the user. -/
def St.init : St := ⟨[⟨none, [], []⟩], [], [], false, 0, 0, []⟩

/-- A program, run in the structure of the user. -/
def program (lib : String → Option File) (thunk : Nat → List Cmd) (n : Nat)
    (cs : List Cmd) : Out :=
  run lib thunk n (.forms .obj cs 0) .init

end Rep.Load
