/-
File handlers: how the functions on files find the handler of a file name and call it
(src/files.c).
-/

namespace Rep.Handler

/-- Operations (`enum file_ops`, src/repint.h:58-102).  `name`: the ones that look at a
name only (`file-name-nondirectory`, `file-name-directory`, `directory-file-name`);
`file`: those on the file with a name (`open-file`, `delete-file`, `file-exists-p`, ...);
`object`: those on an open file (`close-file`, `flush-file`, `seek-file`). -/
inductive Op
  | absoluteP
  | expand
  | localName
  | asDirectory
  | name (i : Fin 3)
  | file (i : Fin 30)
  | object (i : Fin 3)
  | rename
  | copy
  | copyTo
  | copyFrom
  deriving DecidableEq

/-- Lisp values, as far as they matter: `other` stands for any others. -/
inductive Val
  | nil
  | str (s : String)
  | other (n : Nat)
  deriving DecidableEq

/-- What C code or a handler does next.  `W` is everything outside of this model: files,
variables, ... .  `none` as a result is an error (`rep_NULL`). -/
inductive Prog (W : Type)
  | ret (v : Option Val)
  /-- any other code -/
  | act (f : W → W) (k : W → Prog W)
  /-- `rep_get_file_handler` -/
  | find (op : Op) (name : String) (k : Option Nat → Prog W)
  /-- the function for the local file system -/
  | builtin (op : Op) (args : List Val) (k : Option Val → Prog W)
  /-- `rep_call_file_handler` -/
  | enter (h : Nat) (op : Op) (args : List Val) (k : Option Val → Prog W)

variable {W : Type}

/-- The usual end of these functions: `if(rep_NILP(handler)) return rep_...; else return
rep_call_file_handler(...)`. -/
def dispatch (op : Op) (name : String) (args : List Val) (k : Option Val → Prog W) : Prog W :=
  .find op name fun
    | none => .builtin op args k
    | some h => .enter h op args k

/-- `Fexpand_file_name` (files.c:396-456).  `dir`: the second argument, or the value of
`default-directory`, which is taken to be a string. -/
def expandFileName (file dir : String) (k : Option Val → Prog W) : Prog W :=
  dispatch .absoluteP file [.str file] fun
    | none => k none
    | some .nil =>
      dispatch .asDirectory dir [.str dir] fun r =>
        let full := match r with
          | some (.str d) => if d.length > 0 then d ++ file else file
          | _ => file
        dispatch .expand full [.str full] k
    | some _ => dispatch .expand file [.str file] k

/-- `rep_expand_and_get_handler` (files.c:338-351); a result that is no string is an
error in `rep_get_file_handler`. -/
def expandAndFind (op : Op) (file dir : String) (err : Prog W)
    (k : String → Option Nat → Prog W) : Prog W :=
  expandFileName file dir fun
    | some (.str full) => .find op full (k full)
    | _ => err

/-- `Flocal_file_name` (files.c:458-477). -/
def localFileName (file dir : String) (k : Option Val → Prog W) : Prog W :=
  expandAndFind .localName file dir (k none) fun full h => match h with
    | none => k (some (.str full))
    | some h => .enter h .localName [.str full] k

/-- `rep_localise_and_get_handler` (files.c:353-372). -/
def localiseAndFind (op : Op) (file dir : String) (err : Prog W)
    (k : String → Option Nat → Prog W) : Prog W :=
  localFileName file dir fun
    | none => err
    | some .nil => expandFileName file dir fun
      | some (.str full) => .find op full (k full)
      | _ => err
    | some (.str l) => .find op l (k l)
    | some _ => err

/-- Calls of the functions. -/
inductive Call
  | absoluteP (file : String)
  | expand (file dir : String)
  | localName (file dir : String)
  | asDirectory (file : String)
  | name (i : Fin 3) (file : String)
  | file (i : Fin 30) (file dir : String) (args : List Val)
  /-- an open file, with the handler that opened it, if it is not a local one -/
  | object (i : Fin 3) (h : Option Nat) (args : List Val)
  | rename (old new dir : String)
  | copy (src dst dir : String)
  deriving DecidableEq

/-- The functions.  `tmp`: the result of `make-temp-name`. -/
def perform (tmp : String) (c : Call) (k : Option Val → Prog W) : Prog W :=
  match c with
  -- Ffile_name_absolute_p (377-394)
  | .absoluteP file => dispatch .absoluteP file [.str file] k
  | .expand file dir => expandFileName file dir k
  | .localName file dir => localFileName file dir k
  -- Ffile_name_as_directory (541-558) and the three around it
  | .asDirectory file => dispatch .asDirectory file [.str file] k
  | .name i file => dispatch (.name i) file [.str file] k
  -- Fdelete_file (1020-1037) and the others of its kind
  | .file i file dir args => expandAndFind (.file i) file dir (k none) fun full h => match h with
    | none => .builtin (.file i) (.str full :: args) k
    | some h => .enter h (.file i) (.str full :: args) k
  -- Fclose_file, Fflush_file, Fseek_file (891-1006)
  | .object i h args => match h with
    | none => .builtin (.object i) args k
    | some h => .enter h (.object i) args k
  -- Frename_file (1039-1072); the second name is looked up after an error too
  | .rename old new dir =>
    localiseAndFind .rename old dir
      (localiseAndFind .rename new dir (k none) fun _ _ => k none) fun o oh =>
    localiseAndFind .rename new dir (k none) fun n nh =>
      if oh = nh then match oh with
        | none => .builtin .rename [.str o, .str n] k
        | some h => .enter h .rename [.str o, .str n] k
      else k none
  -- Fcopy_file (1113-1171)
  | .copy src dst dir =>
    localiseAndFind .copy src dir
      (localiseAndFind .copy dst dir (k none) fun _ _ => k none) fun s sh =>
    localiseAndFind .copy dst dir (k none) fun d dh =>
      match sh, dh with
      | none, none => .builtin .copy [.str s, .str d] k
      | none, some h => .enter h .copyFrom [.str s, .str d] k
      | some h, none => .enter h .copyTo [.str s, .str d] k
      | some h, some h' =>
        if h = h' then .enter h .copy [.str s, .str d] k
        else .enter h .copyTo [.str s, .str tmp] fun
          | none => k none
          | some _ => .enter h' .copyFrom [.str tmp, .str d] k

/-- Lisp programs, as far as they call these functions: what they do next may depend on
the results; a program may handle errors. -/
inductive User (W : Type)
  | ret (v : Option Val)
  | act (f : W → W) (k : W → User W)
  | call (c : Call) (k : Option Val → User W)

def compile (tmp : String) : User W → Prog W
  | .ret v => .ret v
  | .act f k => .act f fun w => compile tmp (k w)
  | .call c k => perform tmp c fun v => compile tmp (k v)

/-- `file-handler-alist`, its patterns as predicates on names, the functions of the
handlers, and the functions for local files. -/
structure Sys (W : Type) where
  alist : List ((String → Bool) × Nat)
  handler : Nat → Op → List Val → User W
  builtin : Op → List Val → W → Option Val × W
  tmp : String

inductive Event
  | found (op : Op) (name : String) (h : Option Nat)
  | enter (h : Nat) (op : Op)
  | leave (h : Nat) (op : Op)

/-- `rep_blocked_ops`, and a log. -/
structure St (W : Type) where
  world : W
  blocked : Op → List Nat
  log : List Event

/-- The loop of `rep_get_file_handler` (files.c:212-244). -/
def lookup (alist : List ((String → Bool) × Nat)) (blocked : List Nat) (name : String) :
    Option Nat :=
  match alist with
  | [] => none
  | (p, h) :: rest => if p name ∧ h ∉ blocked then some h else lookup rest blocked name

def setBlocked (b : Op → List Nat) (op : Op) (l : List Nat) : Op → List Nat :=
  fun o => if o = op then l else b o

/-- Running; `none` when the fuel does not suffice.  `rep_call_file_handler`: files.c:246-309;
`rep_blocked_ops[op]` is restored to what was there before, whatever the result. -/
def run (sys : Sys W) : Nat → Prog W → St W → Option (Option Val × St W)
  | 0, _, _ => none
  | n + 1, p, st => match p with
    | .ret v => some (v, st)
    | .act f k => run sys n (k st.world) { st with world := f st.world }
    | .find op name k =>
      let h := lookup sys.alist (st.blocked op) name
      run sys n (k h) { st with log := st.log ++ [.found op name h] }
    | .builtin op args k =>
      let r := sys.builtin op args st.world
      run sys n (k r.1) { st with world := r.2 }
    | .enter h op args k =>
      let next := st.blocked op
      match run sys n (compile sys.tmp (sys.handler h op args))
          { st with blocked := setBlocked st.blocked op (h :: next),
                    log := st.log ++ [.enter h op] } with
      | none => none
      | some (v, st') =>
        run sys n (k v) { st' with blocked := setBlocked st'.blocked op next,
                                   log := st'.log ++ [.leave h op] }

/-- A program at top level: nothing is blocked. -/
def start (sys : Sys W) (n : Nat) (u : User W) (w : W) : Option (Option Val × St W) :=
  run sys n (compile sys.tmp u) ⟨w, fun _ => [], []⟩

end Rep.Handler
