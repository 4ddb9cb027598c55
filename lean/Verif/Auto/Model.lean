/-
Model of autoloaded functions and macros (src/lisp.c: rep_load_autoload, apply; src/macros.c:
Fmacroexpand_1; lisp/rep/lang/interpreter.jl: autoload, autoload-macro, make-autoload).

Closures and the lists `(autoload SYMBOL FILE ...)` are objects with identity: a closure is an index into
`clos`, such a list an index into `cells`.  The name, environment and structure of a closure go with its
function wherever that is copied and are left out.  What a function does when it is called, and what a
file does when it is loaded, is a list of definitions, calls and failures.  Simplifications: one
structure, in which `load` is bound; arguments and values of calls are left out; `load` runs the file of
the given name, or fails if there is none.
-/

namespace Rep.Auto

/-- What a closure encloses (lisp.c:1580-1584). -/
inductive Fn
  /-- a lambda expression or compiled code -/
  | code (k : Nat)
  /-- a list `(autoload ...)` -/
  | stub (c : Nat)
  /-- a list `(lambda ARGS "STRING" ...)` whose lambda list is a symbol -/
  | rest (c : Nat) (k : Nat)
  /-- nil -/
  | empty
  deriving DecidableEq, Repr

/-- Lisp values. -/
inductive Val
  | clo (id : Nat)
  | subr (k : Nat)
  /-- a lambda expression that is not enclosed -/
  | lam (k : Nat)
  /-- `(macro . FUN)` where FUN is a closure -/
  | macroClo (id : Nat)
  deriving DecidableEq, Repr

inductive Err
  | void (sym : Nat)
  | noFile
  | invalidAutoload
  | invalidFunction
  | failed
  deriving DecidableEq, Repr

/-- What a definition evaluates. -/
inductive Expr
  | function (k : Nat)
  /-- a function whose lambda list is a symbol and whose body begins with a string -/
  | documented (k sym file : Nat)
  | «autoload» (sym file : Nat)
  | «macro» (k : Nat)
  | autoloadMacro (sym file : Nat)
  | subr (k : Nat)
  | lam (k : Nat)
  | var (sym : Nat)
  deriving DecidableEq, Repr

/-- What files and functions do. -/
inductive Op
  | define (sym : Nat) (e : Expr)
  | call (sym : Nat)
  | expand (sym : Nat)
  | loadAutoload (sym : Nat)
  | fail
  /-- errors are caught -/
  | attempt (o : Op)
  deriving DecidableEq, Repr

structure State where
  clos : List Fn
  /-- SYMBOL and FILE of each list; none when its tail was cut off -/
  cells : List (Option (Nat × Nat))
  vars : Nat → Option Val
  files : Nat → Option (List Op)
  /-- the lists whose file was loaded, in order -/
  loads : List Nat
  /-- the functions that ran, in order -/
  runs : List Nat

inductive Task
  | ops (l : List Op)
  | op (o : Op)
  /-- `closure`: the variable of that name in `apply` is not null -/
  | apply (v : Val) (closure : Bool)
  | load (id : Nat)
  | expand (sym : Nat)

inductive Res
  | done
  /-- the function `k` was called and returned -/
  | ran (k : Nat)
  | val (v : Val)
  /-- the form is not a macro call -/
  | form
  | err (e : Err)
  deriving DecidableEq, Repr

def setVar (s : State) (x : Nat) (v : Val) : State := { s with vars := fun y => if y = x then some v else s.vars y }

/-- `make-closure` (closures.c: Fmake_closure): a new closure. -/
def newClo (s : State) (f : Fn) : Nat × State := (s.clos.length, { s with clos := s.clos ++ [f] })

/-- A new list with SYMBOL and FILE in it. -/
def newCell (s : State) (sym file : Nat) : Nat × State := (s.cells.length, { s with cells := s.cells ++ [some (sym, file)] })

/-- The value of an expression (interpreter.jl:521-536 for the autoloads). -/
def eval (s : State) : Expr → Except Err (Val × State)
  | .function k => let (id, s) := newClo s (.code k); .ok (.clo id, s)
  | .documented k sym file => let (c, s) := newCell s sym file; let (id, s) := newClo s (.rest c k); .ok (.clo id, s)
  | .autoload sym file => let (c, s) := newCell s sym file; let (id, s) := newClo s (.stub c); .ok (.clo id, s)
  | .macro k => let (id, s) := newClo s (.code k); .ok (.macroClo id, s)
  | .autoloadMacro sym file => let (c, s) := newCell s sym file; let (id, s) := newClo s (.stub c); .ok (.macroClo id, s)
  | .subr k => .ok (.subr k, s)
  | .lam k => .ok (.lam k, s)
  | .var x => match s.vars x with | some v => .ok (v, s) | none => .error (.void x)

/-- "trash the autoload defn" (lisp.c:1503-1505). -/
def trash (s : State) (c : Nat) : State := { s with cells := s.cells.set c none, loads := s.loads ++ [c] }

/-- "Magically replace one closure by another" (lisp.c:1523-1537). -/
def replace (s : State) (id : Nat) (v : Val) : State :=
  match v with
  | .clo j | .macroClo j => { s with clos := s.clos.set id (s.clos.getD j .empty) }
  | _ => { s with clos := s.clos.set id .empty }

/-- The evaluator.  `bodies` says what each function does.  None: out of fuel. -/
def exec (bodies : Nat → List Op) : Nat → Task → State → Option (Res × State)
  | 0, _, _ => none
  | _ + 1, .ops [], s => some (.done, s)
  | n + 1, .ops (o :: os), s =>
    match exec bodies n (.op o) s with
    | none => none
    | some (.err e, s) => some (.err e, s)
    | some (_, s) => exec bodies n (.ops os) s
  | _ + 1, .op (.define x e), s =>
    match eval s e with
    | .ok (v, s) => some (.done, setVar s x v)
    | .error e => some (.err e, s)
  | n + 1, .op (.call x), s =>
    match s.vars x with
    | none => some (.err (.void x), s)
    | some v => exec bodies n (.apply v false) s
  | n + 1, .op (.expand x), s => exec bodies n (.expand x) s
  | n + 1, .op (.loadAutoload x), s =>
    match s.vars x with
    | some (.clo id) => exec bodies n (.load id) s
    | some _ => some (.err .failed, s)
    | none => some (.err (.void x), s)
  | _ + 1, .op .fail, s => some (.err .failed, s)
  | n + 1, .op (.attempt o), s =>
    match exec bodies n (.op o) s with
    | none => none
    | some (_, s) => some (.done, s)
  -- `apply` (lisp.c:1548-1745)
  | n + 1, .apply v closure, s =>
    match v with
    | .clo id =>
      match s.clos.getD id .empty with
      | .code k =>
        match exec bodies n (.ops (bodies k)) { s with runs := s.runs ++ [k] } with
        | none => none
        | some (.err e, s) => some (.err e, s)
        | some (_, s) => some (.ran k, s)
      | .rest c k =>
        match s.cells.getD c none with
        | none => some (.done, s)
        | some _ =>
          match exec bodies n (.ops (bodies k)) { s with runs := s.runs ++ [k] } with
          | none => none
          | some (.err e, s) => some (.err e, s)
          | some (_, s) => some (.ran k, s)
      | .stub _ =>
        -- lisp.c:1684-1692, `goto again` with `closure` set
        match exec bodies n (.load id) s with
        | none => none
        | some (.val v, s) => exec bodies n (.apply v true) s
        | some (r, s) => some (r, s)
      | .empty => some (.err .invalidFunction, s)
    | .subr k => some (.ran k, { s with runs := s.runs ++ [k] })
    | .lam k =>
      if closure then
        match exec bodies n (.ops (bodies k)) { s with runs := s.runs ++ [k] } with
        | none => none
        | some (.err e, s) => some (.err e, s)
        | some (_, s) => some (.ran k, s)
      else some (.err .invalidFunction, s)
    | .macroClo _ => some (.err .invalidFunction, s)
  -- `rep_load_autoload` (lisp.c:1468-1538)
  | n + 1, .load id, s =>
    match s.clos.getD id .empty with
    | .stub c | .rest c _ =>
      match s.cells.getD c none with
      | none => some (.err .invalidAutoload, s)
      | some (sym, file) =>
        match s.files file with
        | none => some (.err .noFile, trash s c)
        | some l =>
          match exec bodies n (.ops l) (trash s c) with
          | none => none
          | some (.err e, s) => some (.err e, s)
          | some (_, s) =>
            match s.vars sym with
            | none => some (.err (.void sym), s)
            | some v => some (.val v, replace s id v)
    | _ => some (.err .invalidAutoload, s)
  -- `macroexpand-1` of a form with this symbol in front (macros.c:76-135)
  | n + 1, .expand x, s =>
    match s.vars x with
    | some (.macroClo id) =>
      match s.clos.getD id .empty with
      | .stub _ =>
        match exec bodies n (.load id) s with
        | none => none
        | some (.val _, s) => exec bodies n (.expand x) s
        | some (r, s) => some (r, s)
      | _ => exec bodies n (.apply (.clo id) false) s
    | _ => some (.form, s)

/-- What happens from outside: something is evaluated, or a file is changed. -/
inductive Act
  | eval (n : Nat) (o : Op)
  | put (file : Nat) (l : Option (List Op))

def act (bodies : Nat → List Op) (s : State) : Act → Option State
  | .eval n o => (exec bodies n (.op o) s).map Prod.snd
  | .put f l => some { s with files := fun g => if g = f then l else s.files g }

def acts (bodies : Nat → List Op) (s : State) : List Act → Option State
  | [] => some s
  | a :: as => (act bodies s a).bind fun s => acts bodies s as

def init : State := { clos := [], cells := [], vars := fun _ => none, files := fun _ => none, loads := [], runs := [] }

end Rep.Auto
