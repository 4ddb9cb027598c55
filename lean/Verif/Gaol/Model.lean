/-
Special variables and restricted environments (src/symbols.c, src/structures.c), as used by
lisp/rep/util/gaol.jl to run code that is not trusted.

Every structure has a special environment: `t`, or the list of the special variables that code running
in it may use.  Code is a tree of operations on symbols, dynamic or lexical `let`, `condition-case`, and
calls of functions belonging to other structures.

Simplified: values are trees of atoms, of which some are autoload closures; buffer-local values
(`rep_SF_LOCAL`, used by no code in this package), constant bindings (C51) and the cache of imported
bindings (C49) are left out; what a structure imports does not change; the lexical environment that a
called function brings with it is empty; the value of `*user-structure*` does not change.
-/

namespace Rep.Gaol

abbrev Sym := Nat
/-- The name of a structure. -/
abbrev Sid := Nat

inductive Val
  | atom (n : Nat)
  /-- `(autoload …)` closures -/
  | auto (n : Nat)
  | cons (a d : Val)
  deriving DecidableEq, Repr

/-- The flags of a symbol (rep_lisp.h:430-443): `rep_SF_SPECIAL`, `rep_SF_WEAK`, `rep_SF_WEAK_MOD`,
`rep_SF_DEFVAR`. -/
structure Flags where
  special : Bool := false
  weak : Bool := false
  weakMod : Bool := false
  defvar : Bool := false
  deriving DecidableEq, Repr

/-- `special_env` of a structure (repint.h:158): `t` or a list of symbols. -/
inductive SpecEnv
  | all
  | only (l : List Sym)
  deriving DecidableEq, Repr

/-- A structure: its special environment, its own bindings, what it finds in the structures it has
opened, and whether `set` may create bindings (`rep_STF_SET_BINDS`). -/
structure Struc where
  env : SpecEnv
  own : Sym → Option Val
  imported : Sym → Option Val
  setBinds : Bool

/-- The whole state: flags of the symbols, `rep_specials_structure`, `rep_special_bindings`, the lexical
environment `rep_env`, property lists, structures, and the structure named by `*user-structure*`. -/
structure St where
  flags : Sym → Flags
  globals : Sym → Option Val
  binds : List (Sym × Option Val)
  lex : List (Sym × Option Val)
  plist : Sym → List (Sym × Val)
  struc : Sid → Struc
  user : Option Sid

def upd {α : Type} (f : Nat → α) (k : Nat) (x : α) : Nat → α := fun n => if n = k then x else f n

/-- The result of a function: a value (`none` is the void value), a truth value, a property list, or a
signalled error. -/
inductive Res
  | val (x : Option Val)
  | flag (b : Bool)
  | props (l : List (Sym × Val))
  | err
  deriving DecidableEq, Repr

/-- `search_special_environment` (symbols.c:561-589): 1, -1 or 0. -/
def searchEnv (e : SpecEnv) (v : Sym) : Int :=
  match e with
  | .all => -1
  | .only l => if v ∈ l then 1 else 0

/-- `search_special_bindings` and `search_environment` (symbols.c:528-559): the first binding of `v`. -/
def search : List (Sym × Option Val) → Sym → Option (Option Val)
  | [], _ => none
  | (k, x) :: l, v => if k = v then some x else search l v

/-- The assignment to that binding (symbols.c:950, 964). -/
def assign : List (Sym × Option Val) → Sym → Option Val → List (Sym × Option Val)
  | [], _, _ => []
  | (k, y) :: l, v, x => if k = v then (k, x) :: l else (k, y) :: assign l v x

/-- `F_structure_ref` (structures.c:781-803): an own binding, or one of an opened structure. -/
def sref (t : Struc) (v : Sym) : Option Val :=
  match t.own v with
  | some x => some x
  | none => t.imported v

/-- `Fstructure_define` on an own binding; void removes it (structures.c:864-896). -/
def sdefine (s : St) (t : Sid) (v : Sym) (x : Option Val) : St :=
  { s with struc := upd s.struc t { s.struc t with own := upd (s.struc t).own v x } }

/-- `Fstructure_define (rep_specials_structure, …)`. -/
def gdefine (s : St) (v : Sym) (x : Option Val) : St :=
  { s with globals := upd s.globals v x }

/-- May the value of the special variable be read: `spec < 0 || (spec > 0 && !WEAK_MOD)` (symbols.c:856,
904). -/
def readable (s : St) (cur : Sid) (v : Sym) : Bool :=
  searchEnv (s.struc cur).env v < 0 || (searchEnv (s.struc cur).env v > 0 && !(s.flags v).weakMod)

/-- The dynamic value: the innermost binding or the global value. -/
def dynRef (s : St) (v : Sym) : Option Val :=
  match search s.binds v with
  | some x => x
  | none => s.globals v

/-- `Fsymbol_value (sym, Qt)` (symbols.c:833-888). -/
def symbolValue (s : St) (cur : Sid) (v : Sym) : Option Val :=
  if (s.flags v).special then
    if readable s cur v then dynRef s v else none
  else
    match search s.lex v with
    | some x => x
    | none => sref (s.struc cur) v

/-- `Fdefault_value (sym, Qt)` (symbols.c:890-921). -/
def defaultValue (s : St) (cur : Sid) (v : Sym) : Option Val :=
  if (s.flags v).special then
    if readable s cur v then dynRef s v else none
  else sref (s.struc cur) v

/-- `Fdefault_boundp` (symbols.c:1044-1066): the environment is not asked. -/
def defaultBoundp (s : St) (cur : Sid) (v : Sym) : Bool :=
  if (s.flags v).special then (dynRef s v).isSome else (sref (s.struc cur) v).isSome

/-- The assignment of a dynamic value (symbols.c:948-952, 1004-1008). -/
def dynSet (s : St) (v : Sym) (x : Option Val) : St :=
  match search s.binds v with
  | some _ => { s with binds := assign s.binds v x }
  | none => gdefine s v x

/-- `Fstructure_set` (structures.c:820-862). -/
def structureSet (s : St) (t : Sid) (v : Sym) (x : Option Val) : Res × St :=
  match x with
  | some y =>
    if (s.struc t).setBinds || ((s.struc t).own v).isSome then (.val (some y), sdefine s t v (some y))
    else (.err, s)
  | none => (.val none, sdefine s t v none)

/-- `do_set` with `Fstructure_set` (symbols.c:923-968); `x = none` is `makunbound` (symbols.c:1184-1194). -/
def doSet (s : St) (cur : Sid) (v : Sym) (x : Option Val) : Res × St :=
  if (s.flags v).special then
    if searchEnv (s.struc cur).env v ≠ 0 then
      if searchEnv (s.struc cur).env v > 0 && (s.flags v).weakMod then (.err, s)
      else (.val x, dynSet s v x)
    else (.err, s)
  else
    match search s.lex v with
    | some _ => (.val x, { s with lex := assign s.lex v x })
    | none => structureSet s cur v x

/-- `Fset_default` (symbols.c:986-1016); the result of `Fstructure_set` is not looked at, so the error it
signals is found only by the next evaluation: it is an error here. -/
def setDefault (s : St) (cur : Sid) (v : Sym) (x : Val) : Res × St :=
  if (s.flags v).special then
    if searchEnv (s.struc cur).env v ≠ 0 then
      if searchEnv (s.struc cur).env v > 0 && (s.flags v).weakMod then (.err, s)
      else (.val (some x), dynSet s v (some x))
    else (.err, s)
  else structureSet s cur v (some x)

/-- The alteration of a property list (symbols.c:1232-1264). -/
def putProp : List (Sym × Val) → Sym → Val → Option (List (Sym × Val))
  | [], _, _ => none
  | (k, y) :: l, p, x => if k = p then some ((k, x) :: l) else (putProp l p x).map ((k, y) :: ·)

/-- `Fput` (symbols.c:1222-1264). -/
def put (s : St) (cur : Sid) (v p : Sym) (x : Val) : Res × St :=
  if searchEnv (s.struc cur).env v = 0 then (.err, s)
  else (.val (some x),
    { s with plist := upd s.plist v ((putProp (s.plist v) p x).getD ((p, x) :: s.plist v)) })

def getProp : List (Sym × Val) → Sym → Option Val
  | [], _ => none
  | (k, y) :: l, p => if k = p then some y else getProp l p

/-- `rep_get_initial_special_value` (structures.c:1620-1640): the value that the symbol has in the user's
structure, whose own binding is removed. -/
def initialValue (s : St) (v : Sym) : Option (Val × St) :=
  match s.user with
  | none => none
  | some u =>
    match sref (s.struc u) v with
    | some x => some (x, sdefine s u v none)
    | none => none

/-- Is the variable bound to an autoload definition (symbols.c:728-740)? -/
def isAuto : Option Val → Bool
  | some (.auto _) => true
  | _ => false

/-- The symbol `documentation`. -/
def docSym : Sym := 0

/-- The start of `Fdefvar` (symbols.c:711-740): is the variable bound, after an autoload definition has
been removed? -/
def defvarBound (s : St) (cur : Sid) (v : Sym) : Bool × St :=
  if defaultBoundp s cur v then
    if isAuto (symbolValue s cur v) then (false, (doSet s cur v none).2) else (true, s)
  else (false, s)

/-- The value given to the variable (symbols.c:753-784).  The value of the form is `x`. -/
def defvarValue (s : St) (cur : Sid) (v : Sym) (x : Val) (bound : Bool) : St :=
  match (if (s.flags v).special then none else initialValue s v) with
  | some (y, s') => gdefine s' v (some y)
  | none =>
    if !bound || ((s.flags v).weak && !(s.flags v).weakMod && (s.struc cur).env == .all) then
      gdefine s v (some x)
    else s

/-- The new flags and the new environment (symbols.c:786-819). -/
def defvarFlags (s : St) (cur : Sid) (v : Sym) (spec : Int) : St :=
  let f := { s.flags v with special := true, defvar := true }
  if spec = 0 then
    { s with
      flags := upd s.flags v { f with weak := true }
      struc := upd s.struc cur { s.struc cur with
        env := match (s.struc cur).env with
          | .all => .all
          | .only l => .only (v :: l) } }
  else if (s.struc cur).env = .all && f.weak then
    { s with flags := upd s.flags v { f with weak := false, weakMod := true } }
  else { s with flags := upd s.flags v f }

/-- `Fdefvar` (symbols.c:690-831).  Simplified: the form that gives the value has no effects. -/
def defvar (s : St) (cur : Sid) (v : Sym) (x : Val) (doc : Option Val) : Res × St :=
  let b := defvarBound s cur v
  let s := b.2
  let spec := searchEnv (s.struc cur).env v
  if spec = 0 ∧ (s.flags v).defvar = true ∧ (s.flags v).weak = false then (.err, s)
  else
    let s := defvarFlags (defvarValue s cur v x b.1) cur v spec
    match doc with
    | none => (.val none, s)
    | some d => put s cur v docSym d

/-- `Fmake_variable_special` (symbols.c:1319-1340). -/
def makeSpecial (s : St) (cur : Sid) (v : Sym) : Res × St :=
  if searchEnv (s.struc cur).env v = 0 then (.err, s)
  else
    let s :=
      match (if (s.flags v).special then none else initialValue s v) with
      | some (y, s') => gdefine s' v (some y)
      | none => s
    (.val none, { s with flags := upd s.flags v { s.flags v with special := true } })

/-- What the compiler makes of `(defvar NAME VALUE)` (lisp/rep/vm/compiler/rep.jl:274-292, `trans-defvar`):
`make-variable-special`, and `setq` unless it is bound. -/
def compiledDefvar (s : St) (cur : Sid) (v : Sym) (x : Val) : Res × St :=
  match makeSpecial s cur v with
  | (.err, s) => (.err, s)
  | (_, s) => if (symbolValue s cur v).isSome then (.val none, s) else doSet s cur v (some x)

/-- The start of `add-hook` (lisp/rep/system.jl:34-44): `make-variable-special` and `set` to nil unless it
is bound. -/
def addHookInit (s : St) (cur : Sid) (v : Sym) (nil : Val) : Res × St :=
  if (symbolValue s cur v).isSome then (.val none, s)
  else
    match makeSpecial s cur v with
    | (.err, s) => (.err, s)
    | (_, s) => doSet s cur v (some nil)

/-- `add-hook` without AT-END (lisp/rep/system.jl:34-44), running in its own structure. -/
def addHook (s : St) (cur : Sid) (v : Sym) (x nil : Val) : Res × St :=
  match addHookInit s cur v nil with
  | (.err, s) => (.err, s)
  | (_, s) =>
    match symbolValue s cur v with
    | none => (.err, s)
    | some old => doSet s cur v (some (.cons x old))

/-- The functions and special forms. -/
inductive Op
  | symbolValue (v : Sym)
  | defaultValue (v : Sym)
  | boundp (v : Sym)
  | defaultBoundp (v : Sym)
  | specialp (v : Sym)
  | set (v : Sym) (x : Val)
  | setDefault (v : Sym) (x : Val)
  | makunbound (v : Sym)
  /-- `%define` (symbols.c:1144-1182) without documentation -/
  | define (v : Sym) (x : Val)
  | defvar (v : Sym) (x : Val) (doc : Option Val)
  | compiledDefvar (v : Sym) (x : Val)
  | makeSpecial (v : Sym)
  | addHook (v : Sym) (x nil : Val)
  | get (v p : Sym)
  | put (v p : Sym) (x : Val)
  | setplist (v : Sym) (l : List (Sym × Val))
  | symbolPlist (v : Sym)
  deriving DecidableEq, Repr

/-- The symbol an operation is about. -/
def Op.sym : Op → Sym
  | .symbolValue v | .defaultValue v | .boundp v | .defaultBoundp v | .specialp v | .set v _
  | .setDefault v _ | .makunbound v | .define v _ | .defvar v _ _ | .compiledDefvar v _ | .makeSpecial v
  | .addHook v _ _ | .get v _ | .put v _ _ | .setplist v _ | .symbolPlist v => v

def signalVoid : Option Val → Res
  | some x => .val (some x)
  | none => .err

/-- One operation by code that runs in the structure `cur`. -/
def step (s : St) (cur : Sid) : Op → Res × St
  | .symbolValue v => (signalVoid (symbolValue s cur v), s)
  | .defaultValue v => (signalVoid (defaultValue s cur v), s)
  -- Fboundp, symbols.c:1068-1076
  | .boundp v => (.flag (symbolValue s cur v).isSome, s)
  | .defaultBoundp v => (.flag (defaultBoundp s cur v), s)
  -- Fspecial_variable_p, symbols.c:1342-1352
  | .specialp v => (.flag (s.flags v).special, s)
  | .set v x => doSet s cur v (some x)
  | .setDefault v x => setDefault s cur v x
  | .makunbound v => doSet s cur v none
  | .define v x => (.val none, sdefine s cur v (some x))
  | .defvar v x doc => defvar s cur v x doc
  | .compiledDefvar v x => compiledDefvar s cur v x
  | .makeSpecial v => makeSpecial s cur v
  | .addHook v x nil => addHook s cur v x nil
  -- Fget, symbols.c:1196-1220: the environment is not asked
  | .get v p => (.val (getProp (s.plist v) p), s)
  | .put v p x => put s cur v p x
  -- Fsetplist, symbols.c:1018-1033
  | .setplist v l =>
    if searchEnv (s.struc cur).env v = 0 then (.err, s)
    else (.props l, { s with plist := upd s.plist v l })
  -- Fsymbol_plist, symbols.c:1078-1096
  | .symbolPlist v =>
    if searchEnv (s.struc cur).env v = 0 then (.err, s) else (.props (s.plist v), s)

/-- Programs. -/
inductive Cmd
  | op (o : Op)
  | seq (a b : Cmd)
  /-- `(let ((v x)) body)` -/
  | letIn (v : Sym) (x : Val) (body : Cmd)
  /-- `(condition-case nil body (error))` -/
  | guarded (body : Cmd)
  /-- the call of a function that belongs to the structure `t` (or `eval` in it) -/
  | call (t : Sid) (body : Cmd)
  deriving DecidableEq, Repr

/-- An event: code running in this structure has called this function with this result. -/
structure Ev where
  who : Sid
  op : Op
  res : Res
  deriving DecidableEq, Repr

/-- `rep_unbind_symbols` (symbols.c:648-680) for one binding. -/
def pop {α : Type} : List α → List α := List.tail

/-- The interpreter: events, whether it ends normally, and the state.  `rep_bind_symbol` and
`rep_unbind_symbols` (symbols.c:608-680): a special variable that is not in the environment cannot be
bound, and then the body is not evaluated (`rep_eval`, lisp.c:1947). -/
def run : Cmd → Sid → St → List Ev × Bool × St
  | .op o, cur, s =>
    let r := step s cur o
    ([⟨cur, o, r.1⟩], r.1 != .err, r.2)
  | .seq a b, cur, s =>
    let r := run a cur s
    if r.2.1 then
      let q := run b cur r.2.2
      (r.1 ++ q.1, q.2)
    else r
  | .letIn v x body, cur, s =>
    if (s.flags v).special then
      if searchEnv (s.struc cur).env v ≠ 0 then
        let r := run body cur { s with binds := (v, some x) :: s.binds }
        (r.1, r.2.1, { r.2.2 with binds := pop r.2.2.binds })
      else ([], false, s)
    else
      let r := run body cur { s with lex := (v, some x) :: s.lex }
      (r.1, r.2.1, { r.2.2 with lex := pop r.2.2.lex })
  | .guarded body, cur, s =>
    let r := run body cur s
    (r.1, true, r.2.2)
  | .call t body, _, s =>
    let r := run body t { s with lex := [] }
    (r.1, r.2.1, { r.2.2 with lex := s.lex })

end Rep.Gaol
