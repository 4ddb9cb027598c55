/-
Binding the parameters of a function: the interpreter (src/lisp.c), compiled functions
(lisp/rep/vm/compiler/basic.jl, src/lispmach.h) and lambda expressions that are compiled inline
(lisp/rep/vm/compiler/inline.jl).
-/

namespace Rep.Lambda

/-- What the model takes from the rest of the system: values, forms, the keyword of a symbol (`#:x`
for `x`), and evaluation, which may change the state and may fail. -/
structure World (Val Form St : Type) where
  kw : Nat → Val
  eval : Form → St → Option Val × St

/-- An element of a lambda list: one of the three markers, a parameter (`SYMBOL` or
`(SYMBOL DEFAULT)`) or something else. -/
inductive Item (Form : Type)
  | opt
  | key
  | rest
  | par (s : Nat) (d : Option Form)
  | bad

/-- What a variable is bound to: a value, a list of values, or `rep_NULL`. -/
inductive Bound (Val : Type)
  | val (v : Val)
  | nil
  | list (l : List Val)
  | null

/-- Variables and what they are bound to, the innermost first. -/
abbrev Env (Val : Type) := List (Nat × Bound Val)

inductive Res (Val : Type)
  | bound (e : Env Val)
  | missing
  | invalid
  /-- the evaluation of a default failed -/
  | failed
  /-- the machine's stack does not have the shape the instruction needs -/
  | stuck

variable {Val Form St : Type} [DecidableEq Val]

/-! ### The interpreter -/

inductive Phase
  | required
  | optional
  | key
  | rest
  deriving DecidableEq

/-- `VAR_VALUE` and `VAR_EVALP`. -/
inductive Cell (Val Form : Type)
  | done (b : Bound Val)
  | form (f : Form)

/-- A default that has to be evaluated; a missing one is nil (which evaluates to itself). -/
def Cell.default : Option Form → Cell Val Form
  | some f => .form f
  | none => .done .nil

/-- The search for a keyword argument, lisp.c:1286-1300: the value and the arguments with both
overwritten by `rep_NULL`. -/
def findKey (k : Val) : List (Option Val) → Option (Val × List (Option Val))
  | some a :: some v :: l =>
    if a = k then some (v, none :: none :: l)
    else (findKey k (some v :: l)).map fun r => (r.1, some a :: r.2)
  | a :: b :: l => (findKey k (b :: l)).map fun r => (r.1, a :: r.2)
  | _ => none

/-- Pass 1 of `bind_lambda_list_1`, lisp.c:1202-1324.  `tail` is what the lambda list ends with, if
that is a symbol. -/
def pass1 (w : World Val Form St) (tail : Option Nat) :
    Phase → List (Item Form) → List (Option Val) → List (Nat × Cell Val Form) → Res Val ⊕ List (Nat × Cell Val Form)
  | _, [], args, vars =>
    match tail with
    | none => .inr vars
    | some s => .inr (vars ++ [(s, .done (.list (args.filterMap id)))])
  | ph, .opt :: l, args, vars =>
    match ph with
    | .required => pass1 w tail .optional l args vars
    | _ => .inl .invalid
  | ph, .key :: l, args, vars =>
    match ph with
    | .required | .optional => pass1 w tail .key l args vars
    | _ => .inl .invalid
  | ph, .rest :: l, args, vars =>
    match ph with
    | .rest => .inl .invalid
    | _ => pass1 w tail .rest l args vars
  | ph, .par s d :: l, args, vars =>
    match ph with
    | .required =>
      match args with
      | a :: args' => pass1 w tail ph l args' (vars ++ [(s, .done ((a.map Bound.val).getD .null))])
      | [] => .inl .missing
    | .optional =>
      match args with
      | a :: args' => pass1 w tail ph l args' (vars ++ [(s, .done ((a.map Bound.val).getD .null))])
      | [] => pass1 w tail ph l [] (vars ++ [(s, .default d)])
    | .key =>
      match findKey (w.kw s) args with
      | some (v, args') => pass1 w tail ph l args' (vars ++ [(s, .done (.val v))])
      | none => pass1 w tail ph l args (vars ++ [(s, .default d)])
    | .rest => .inr (vars ++ [(s, .done (.list (args.filterMap id)))])
  | _, .bad :: _, _, _ => .inl .invalid

/-- Pass 2, lisp.c:1326-1346: the defaults are evaluated in turn. -/
def pass2 (w : World Val Form St) : List (Nat × Cell Val Form) → St → Option (List (Nat × Bound Val)) × St
  | [], st => (some [], st)
  | (s, .done b) :: l, st =>
    match pass2 w l st with
    | (r, st') => (r.map ((s, b) :: ·), st')
  | (s, .form f) :: l, st =>
    match w.eval f st with
    | (none, st') => (none, st')
    | (some v, st') =>
      match pass2 w l st' with
      | (r, st'') => (r.map ((s, .val v) :: ·), st'')

/-- `bind_lambda_list_1`, lisp.c:1183-1359.  Pass 3 binds the variables in turn, so that the last one
is the innermost. -/
def interpret (w : World Val Form St) (l : List (Item Form)) (tail : Option Nat) (args : List Val) (st : St) : Res Val × St :=
  match pass1 w tail .required l (args.map some) [] with
  | .inl r => (r, st)
  | .inr vars =>
    match pass2 w vars st with
    | (none, st') => (.failed, st')
    | (some e, st') => (.bound e.reverse, st')

/-! ### Compiled functions -/

/-- The instructions at the beginning of a function. -/
inductive Ins (Form : Type)
  | required
  | optional
  | rest
  /-- `push #:k` and `keyword-arg` -/
  | keyword (k : Nat)
  | optionalD
  | keywordD (k : Nat)
  /-- `jt L`, the code for the default, `L:` -/
  | default (f : Form)
  | bind (s : Nat)

/-- The last clause of the loop of `compile-lambda-spec`, basic.jl:310-333 -/
def parCode (ph : Phase) (s : Nat) (d : Option Form) : List (Ins Form) :=
  match ph, d with
  | .required, _ => [.required]
  | .optional, none => [.optional]
  | .optional, some f => [.optionalD, .default f]
  | .key, none => [.keyword s]
  | .key, some f => [.keywordD s, .default f]
  | .rest, _ => [.rest]

/-- `compile-lambda-spec`, basic.jl:282-333, with `vars` the parameters so far, the last one first.
Something that is not a symbol nor a list is an error when the code is compiled (`none`). -/
def specCode (tail : Option Nat) : Phase → List (Item Form) → List Nat → Option (List (Ins Form))
  | _, [], vars =>
    match tail with
    | none => some (vars.map .bind)
    | some s => some (.rest :: (s :: vars).map .bind)
  | _, .opt :: l, vars => specCode tail .optional l vars
  | _, .key :: l, vars => specCode tail .key l vars
  | _, .rest :: l, vars => specCode tail .rest l vars
  | ph, .par s d :: l, vars => (specCode tail ph l (s :: vars)).map (parCode ph s d ++ ·)
  | _, .bad :: _, _ => none

/-- An element of the stack. -/
inductive Slot (Val : Type)
  | b (b : Bound Val)
  | flag (t : Bool)

/-- The machine: `argv` from `argptr` on, the stack, the bindings. -/
structure Mach (Val : Type) where
  args : List (Option Val)
  stack : List (Slot Val)
  env : Env Val

/-- `keyword-arg`, lispmach.h:2071-2085: every place, and the value may be `rep_NULL`. -/
def key1 (k : Val) : List (Option Val) → Option (Option Val × List (Option Val))
  | a :: b :: l =>
    if a = some k then some (b, none :: none :: l)
    else (key1 k (b :: l)).map fun r => (r.1, a :: r.2)
  | _ => none

/-- `keyword-arg*`, lispmach.h:2100-2115: every second place. -/
def key2 (k : Val) : List (Option Val) → Option (Option Val × List (Option Val))
  | a :: b :: l =>
    if a = some k then some (b, none :: none :: l)
    else (key2 k l).map fun r => (r.1, a :: b :: r.2)
  | _ => none

def ofOpt : Option Val → Bound Val
  | some v => .val v
  | none => .null

/-- An instruction, lispmach.h:2043-2115; `init-bind` and the way bindings are stored are not
modelled. -/
def exec (w : World Val Form St) (m : Mach Val) (st : St) : Ins Form → (Res Val ⊕ Mach Val) × St
  | .required =>
    match m.args with
    | a :: l => (.inr { m with args := l, stack := .b (ofOpt a) :: m.stack }, st)
    | [] => (.inl .missing, st)
  | .optional =>
    match m.args with
    | a :: l => (.inr { m with args := l, stack := .b (ofOpt a) :: m.stack }, st)
    | [] => (.inr { m with stack := .b .nil :: m.stack }, st)
  | .rest => (.inr { m with args := [], stack := .b (.list (m.args.filterMap id)) :: m.stack }, st)
  | .keyword k =>
    match key1 (w.kw k) m.args with
    | some (v, l) => (.inr { m with args := l, stack := .b (ofOpt v) :: m.stack }, st)
    | none => (.inr { m with stack := .b .nil :: m.stack }, st)
  | .optionalD =>
    match m.args with
    | a :: l => (.inr { m with args := l, stack := .flag true :: .b (ofOpt a) :: m.stack }, st)
    | [] => (.inr { m with stack := .flag false :: m.stack }, st)
  | .keywordD k =>
    match key2 (w.kw k) m.args with
    | some (v, l) => (.inr { m with args := l, stack := .flag true :: .b (ofOpt v) :: m.stack }, st)
    | none => (.inr { m with stack := .flag false :: m.stack }, st)
  | .default f =>
    match m.stack with
    | .flag true :: s => (.inr { m with stack := s }, st)
    | .flag false :: s =>
      match w.eval f st with
      | (none, st') => (.inl .failed, st')
      | (some v, st') => (.inr { m with stack := .b (.val v) :: s }, st')
    | _ => (.inl .stuck, st)
  | .bind x =>
    match m.stack with
    | .b v :: s => (.inr { m with stack := s, env := (x, v) :: m.env }, st)
    | _ => (.inl .stuck, st)

def execAll (w : World Val Form St) : List (Ins Form) → Mach Val → St → Res Val × St
  | [], m, st => (.bound m.env, st)
  | i :: l, m, st =>
    match exec w m st i with
    | (.inl r, st') => (r, st')
    | (.inr m', st') => execAll w l m' st'

/-- A call of a compiled function. -/
def compiled (w : World Val Form St) (l : List (Item Form)) (tail : Option Nat) (args : List Val) (st : St) : Res Val × St :=
  match specCode tail .required l [] with
  | none => (.invalid, st)
  | some c => execAll w c ⟨args.map some, [], []⟩ st

/-! ### Inline lambda expressions -/

/-- An entry of `bind-stack`: a parameter, or one with the number of arguments in its list. -/
inductive Bnd
  | one (s : Nat)
  | many (s n : Nat)

/-- What is compiled after the arguments: defaults to be pushed (`none` for nil), the parameters,
the number of arguments that are left. -/
structure Inline (Form : Type) where
  pushes : List (Option Form)
  binds : List Bnd
  left : Nat

/-- The phases of `push-inline-args`; the last is `*done*`. -/
inductive IPhase
  | required
  | optional
  | rest
  | done
  deriving DecidableEq

/-- The loop of `push-inline-args`, inline.jl:62-93.  `none` is an error of the compiler.  A
parameter with a default in the required part is not modelled as the code would (it is bound like
a list of arguments): an error here. -/
def inlineArgs (tail : Option Nat) : IPhase → List (Item Form) → Inline Form → Option (Inline Form)
  | _, [], i =>
    match tail with
    | none => some i
    | some s => some { i with binds := .many s i.left :: i.binds, left := 0 }
  | _, .opt :: l, i => inlineArgs tail .optional l i
  | _, .key :: _, _ => none
  | _, .rest :: l, i => inlineArgs tail .rest l i
  | ph, .par s d :: l, i =>
    match ph with
    | .required =>
      if i.left = 0 ∨ d.isSome then none
      else inlineArgs tail ph l { i with binds := .one s :: i.binds, left := i.left - 1 }
    | .optional =>
      if i.left = 0 then inlineArgs tail ph l { i with pushes := i.pushes ++ [d], binds := .one s :: i.binds }
      else inlineArgs tail ph l { i with binds := .one s :: i.binds, left := i.left - 1 }
    | .rest => inlineArgs tail .done l { i with binds := .many s i.left :: i.binds, left := 0 }
    | .done => inlineArgs tail .done l i
  | _, .bad :: _, _ => none

/-- The code for the defaults, on the stack of values. -/
def runPushes (w : World Val Form St) : List (Option Form) → List (Bound Val) → St → Option (List (Bound Val)) × St
  | [], s, st => (some s, st)
  | none :: l, s, st => runPushes w l (.nil :: s) st
  | some f :: l, s, st =>
    match w.eval f st with
    | (none, st') => (none, st')
    | (some v, st') => runPushes w l (.val v :: s) st'

/-- `push ()` and `n` times `cons`, inline.jl:99-107.  (Only values are consed, not lists.) -/
def consUp : Nat → List (Bound Val) → List Val → Option (List Val × List (Bound Val))
  | 0, s, acc => some (acc, s)
  | n + 1, .val v :: s, acc => consUp n s (v :: acc)
  | _, _, _ => none

/-- `pop-inline-args`, inline.jl:95-116: the last parameter is bound first. -/
def runBinds : List Bnd → List (Bound Val) → Env Val → Option (Env Val × List (Bound Val))
  | [], s, e => some (e, s)
  | .one x :: l, v :: s, e => runBinds l s ((x, v) :: e)
  | .one _ :: _, [], _ => none
  | .many x n :: l, s, e =>
    match consUp n s [] with
    | none => none
    | some (vs, s') => runBinds l s' ((x, .list vs) :: e)

/-- A call of an inline lambda expression, `compile-lambda-inline`, inline.jl:123-175: the arguments
are on the stack, the last one on top.  `none`: the compiler refuses the call. -/
def inlined (w : World Val Form St) (l : List (Item Form)) (tail : Option Nat) (args : List Val) (st : St) : Option (Res Val × St) :=
  match inlineArgs tail .required l ⟨[], [], args.length⟩ with
  | none => none
  | some i =>
    match runPushes w i.pushes (args.reverse.map .val) st with
    | (none, st') => some (.failed, st')
    | (some s, st') =>
      match runBinds i.binds s [] with
      | none => some (.stuck, st')
      | some (e, _) => some (.bound e, st')

end Rep.Lambda
