/-
Derived forms: the macros of lisp/rep/lang/interpreter.jl and the part of the
evaluator (src/lisp.c) that runs their expansions.

The model is an evaluator on list structure, as `rep_eval` is: a form whose
head is a macro is expanded by the macro's own function and the expansion is
evaluated in its place, so nested forms are expanded while the program runs.
-/
import Mathlib.Data.List.Basic

namespace Rep.Forms

/-- A symbol: interned (by its name), or made by `gensym`
(src/symbols.c:1098-1115), which no program text can contain. -/
inductive Sym
  | name (s : String)
  | gen (n : Nat)
  deriving DecidableEq

/-- List structure (the objects a form consists of).  Simplification: strings,
vectors and other self-evaluating constants behave as `int` does. -/
inductive Sexp
  | nil
  | int (n : Int)
  | sym (s : Sym)
  | cons (a d : Sexp)
  deriving DecidableEq

namespace Sexp

/-- `Flist` (src/lispcmds.c:146-160): a proper list of the elements. -/
def ofList : List Sexp → Sexp
  | [] => .nil
  | x :: xs => .cons x (ofList xs)

/-- The elements of a proper list; `none` for an improper one. -/
def toList : Sexp → Option (List Sexp)
  | .nil => some []
  | .cons a d => (toList d).map (a :: ·)
  | _ => none

/-- `Fcar` (src/lispcmds.c:121-132): nil of anything but a pair. -/
def car : Sexp → Sexp
  | .cons a _ => a
  | _ => .nil

/-- `Fcdr` (src/lispcmds.c:133-144). -/
def cdr : Sexp → Sexp
  | .cons _ d => d
  | _ => .nil

end Sexp

/-- The interned symbol with a name, as a form. -/
def nm (s : String) : Sexp := .sym (.name s)

/-- Special forms of src/lisp.c, src/symbols.c and src/lispcmds.c, and macros of
lisp/rep/lang/interpreter.jl. -/
inductive Kw
  | quote | lambda | cond | setq | progn
  | «let» | letStar | letrec | «if» | case | when | unless | or | and
  | «do» | «while» | prog1 | prog2
  deriving DecidableEq

/-- Functions: those the expansions use, and any others (`P`). -/
inductive Fn (P : Type)
  | not | eql | memql
  | prim (p : P)
  deriving DecidableEq

/-- Lexical environments: variables and their locations. -/
abbrev Env := List (Sym × Nat)

/-- Values: data, closures of the lambda expression `(lambda . lam)`, functions,
and special forms and macros. -/
inductive Val (P : Type)
  | data (d : Sexp)
  | clos (lam : Sexp) (env : Env)
  | fn (f : Fn P)
  | kw (k : Kw)

/-- Errors signalled by the evaluator, and whatever a function signals. -/
inductive Err
  | void (s : Sym)
  | missing (s : Sym)
  | notFunction
  | syntax
  | prim (d : Sexp)
  deriving DecidableEq

/-- The result of an evaluation: values, or an error. -/
inductive Res (V : Type)
  | ok (vs : List V)
  | err (e : Err)
  deriving DecidableEq

/-- What a function given as a parameter of the model can answer: a datum, one
of its arguments, or an error. -/
inductive Ans
  | datum (d : Sexp)
  | arg (i : Nat)
  | err (d : Sexp)

/-- `Feql` (src/numbers.c:2029-2050) on data.  Simplification: two lists are never the
same object here (a constant in the text of a `case` form is not the object
that the key evaluates to). -/
def eqlData : Sexp → Sexp → Bool
  | .cons _ _, _ => false
  | a, b => decide (a = b)

/-- `Fmemql` (src/lispcmds.c:667-690): the first tail whose first element is `eql`. -/
def memqlData (x : Sexp) : Sexp → Sexp
  | .cons a d => if eqlData a x then .cons a d else memqlData x d
  | _ => .nil

/-- The value of a truth value. -/
def bool (b : Bool) : Sexp := if b then nm "t" else .nil

/-- Calling a function: what it sees of each argument is the datum, or `none`
for an argument that is a function (simplification: functions cannot be
compared or inspected).  `Fnot`, `Feql`, `Fmemql` (src/lispcmds.c:667-690); every other
function is a parameter `prim` of the model, with a world `W` to act on. -/
def callFn {P W : Type} (prim : P → List (Option Sexp) → W → Ans × W)
    (f : Fn P) (vs : List (Option Sexp)) (w : W) : Ans × W :=
  match f with
  | .prim p => prim p vs w
  | .not =>
    match vs with
    | some .nil :: _ => (.datum (nm "t"), w)
    | [] => (.datum (nm "t"), w)
    | _ => (.datum .nil, w)
  | .eql =>
    match vs with
    | some a :: some b :: _ => (.datum (bool (eqlData b a)), w)
    | _ => (.datum .nil, w)
  | .memql =>
    match vs with
    | some a :: some b :: _ => (.datum (memqlData a b), w)
    | _ => (.datum .nil, w)

/-- The value of the answer. -/
def Ans.toRes {V : Type} (mk : Sexp → V) (vs : List V) : Ans → Res V
  | .datum d => .ok [mk d]
  | .arg i => match vs[i]? with
    | some v => .ok [v]
    | none => .ok [mk .nil]
  | .err d => .err (.prim d)

/-- The bindings of rep.lang.interpreter and rep.data that the expansions refer
to (lisp/rep/lang/interpreter.jl:32-47, and the `export-bindings` forms). -/
def table (P : Type) : List (String × Val P) :=
  [("nil", .data .nil), ("t", .data (nm "t")),
   ("not", .fn .not), ("eql", .fn .eql), ("memql", .fn .memql),
   ("quote", .kw .quote), ("lambda", .kw .lambda), ("cond", .kw .cond),
   ("setq", .kw .setq), ("progn", .kw .progn), ("let", .kw .let),
   ("let*", .kw .letStar), ("letrec", .kw .letrec), ("if", .kw .if),
   ("case", .kw .case), ("when", .kw .when), ("unless", .kw .unless),
   ("or", .kw .or), ("and", .kw .and), ("do", .kw .do),
   ("while", .kw .while), ("prog1", .kw .prog1), ("prog2", .kw .prog2)]

/-- The variable bound by one of the BINDINGS of `let`
(interpreter.jl:138-141, 171-173). -/
def bindVar : Sexp → Sexp
  | .cons a _ => a
  | x => x

/-- The form that gives its value (interpreter.jl:142-145). -/
def bindValue : Sexp → Sexp
  | .cons _ d => .cons (nm "progn") d
  | _ => .nil

/-- The `setq` form of one of the BINDINGS of `letrec`
(interpreter.jl:174-176). -/
def setter : Sexp → Sexp
  | .cons a d => .ofList [nm "setq", a, .cons (nm "progn") d]
  | x => .ofList [nm "setq", x, .nil]

/-- macro `let` (interpreter.jl:120-150). -/
def expandLet (args : List Sexp) : Option Sexp :=
  match args with
  | .sym f :: rest => do
    let bs ← (rest.headD .nil).toList
    let vars := Sexp.ofList (bs.map bindVar)
    let values := Sexp.ofList (bs.map bindValue)
    pure (.ofList [nm "letrec",
      .ofList [.ofList [.sym f,
        .cons (nm "lambda") (.cons vars (.ofList rest.tail))]],
      .cons (.sym f) values])
  | _ => do
    let bs ← (args.headD .nil).toList
    let vars := Sexp.ofList (bs.map bindVar)
    let values := Sexp.ofList (bs.map bindValue)
    pure (.cons (.cons (nm "lambda") (.cons vars (.ofList args.tail))) values)

/-- The loop of macro `let*` (interpreter.jl:158-161). -/
def letStarLoop : List Sexp → Sexp → Sexp
  | [], body => body
  | b :: rest, body => letStarLoop rest (.ofList [nm "let", .ofList [b], body])

/-- macro `let*` (interpreter.jl:152-161). -/
def expandLetStar (args : List Sexp) : Option Sexp := do
  let bs ← (args.headD .nil).toList
  pure (letStarLoop bs.reverse (.cons (nm "progn") (.ofList args.tail)))

/-- macro `letrec` (interpreter.jl:163-176). -/
def expandLetrec : List Sexp → Option Sexp
  | [] => none
  | bindings :: body => do
    let bs ← bindings.toList
    pure (.cons (nm "let") (.cons (.ofList (bs.map bindVar))
      (.ofList (bs.map setter ++ body))))

/-- macro `if` (interpreter.jl:196-202). -/
def expandIf : List Sexp → Option Sexp
  | condition :: thn :: els =>
    if els = [] then some (.ofList [nm "cond", .ofList [condition, thn]])
    else some (.ofList [nm "cond", .ofList [condition, thn],
      .cons (nm "t") (.ofList els)])
  | _ => none

/-- One clause of `case` (interpreter.jl:219-225). -/
def caseClause (tem : Sexp) (this : Sexp) : Sexp :=
  if this.car = nm "t" then .cons (nm "t") this.cdr
  else if this.car.cdr ≠ .nil then
    .cons (.ofList [nm "memql", tem, .ofList [nm "quote", this.car]]) this.cdr
  else .cons (.ofList [nm "eql", tem, .ofList [nm "quote", this.car.car]]) this.cdr

/-- The loop over the clauses (interpreter.jl:214-228); the clauses are
collected in reverse and reversed at the end. -/
def caseLoop (tem : Sexp) : List Sexp → List Sexp → List Sexp
  | [], body => body.reverse
  | this :: rest, body => caseLoop tem rest (caseClause tem this :: body)

/-- macro `case` (interpreter.jl:204-228), with the symbol from `gensym`. -/
def expandCase (tem : Sexp) : List Sexp → Option Sexp
  | [] => none
  | key :: clauses =>
    some (.ofList [nm "let", .ofList [.ofList [tem, key]],
      .cons (nm "cond") (.ofList (caseLoop tem clauses []))])

/-- macro `when` (interpreter.jl:230-233). -/
def expandWhen : List Sexp → Option Sexp
  | [] => none
  | condition :: forms =>
    some (.ofList [nm "if", condition, .cons (nm "progn") (.ofList forms)])

/-- macro `unless` (interpreter.jl:235-238). -/
def expandUnless : List Sexp → Option Sexp
  | [] => none
  | condition :: forms =>
    some (.ofList [nm "if", .ofList [nm "not", condition],
      .cons (nm "progn") (.ofList forms)])

/-- macro `or` (interpreter.jl:240-251). -/
def expandOr (args : List Sexp) : Option Sexp :=
  if args = [] then some (nm "nil")
  else some (.cons (nm "cond") (.ofList (args.map fun x => .ofList [x])))

/-- The loop of macro `and` (interpreter.jl:264-269). -/
def andLoop : List Sexp → Sexp → Sexp
  | [], body => body
  | x :: rest, body =>
    andLoop rest (if body ≠ .nil then .ofList [nm "cond", .ofList [x, body]]
      else .ofList [nm "cond", .ofList [x]])

/-- macro `and` (interpreter.jl:253-269). -/
def expandAnd (args : List Sexp) : Option Sexp :=
  if args = [] then some (nm "t")
  else some (andLoop args.reverse .nil)

/-- `(list (car var) (nth 1 var))` (interpreter.jl:347-348); `nth` wants a
list. -/
def doInit : Sexp → Option Sexp
  | .nil => some (.ofList [.nil, .nil])
  | .cons x d => some (.ofList [x, d.car])
  | _ => none

/-- `(if (cddr var) (caddr var) (car var))` (interpreter.jl:351-355). -/
def doStep (var : Sexp) : Sexp :=
  if var.cdr.cdr ≠ .nil then var.cdr.cdr.car else var.car

/-- macro `do` (interpreter.jl:316-356). -/
def expandDo (tem : Sexp) : List Sexp → Option Sexp
  | vars :: test :: body => do
    let vs ← vars.toList
    let inits ← vs.mapM doInit
    pure (.ofList [nm "let", tem, .ofList inits,
      .cons (nm "if") (.cons test.car (.cons (.cons (nm "progn") test.cdr)
        (.ofList (body ++ [.cons tem (.ofList (vs.map doStep))]))))])
  | _ => none

/-- macro `while` (interpreter.jl:358-372). -/
def expandWhile (tem : Sexp) : List Sexp → Option Sexp
  | [] => none
  | condition :: body =>
    some (.ofList [nm "let", tem, .nil,
      .ofList [nm "cond", .ofList [condition, .cons (nm "progn") (.ofList body),
        .ofList [tem]]]])

/-- macro `prog1` (interpreter.jl:374-377). -/
def expandProg1 (tem : Sexp) : List Sexp → Option Sexp
  | [] => none
  | form1 :: forms =>
    some (.ofList [.cons (nm "lambda") (.cons (.ofList [tem])
      (.ofList (forms ++ [tem]))), form1])

/-- macro `prog2` (interpreter.jl:379-385). -/
def expandProg2 (args : List Sexp) : Option Sexp :=
  some (.ofList [nm "progn", args.headD .nil,
    .cons (nm "prog1") (.ofList args.tail)])

/-- The expansion of a macro call; the counter of `gensym` is `g`. `none`: the
macro's function signals an error. -/
def expand (k : Kw) (args : List Sexp) (g : Nat) : Option (Sexp × Nat) :=
  let tem : Sexp := .sym (.gen g)
  match k with
  | .let => (expandLet args).map (·, g)
  | .letStar => (expandLetStar args).map (·, g)
  | .letrec => (expandLetrec args).map (·, g)
  | .if => (expandIf args).map (·, g)
  | .case => (expandCase tem args).map (·, g + 1)
  | .when => (expandWhen args).map (·, g)
  | .unless => (expandUnless args).map (·, g)
  | .or => (expandOr args).map (·, g)
  | .and => (expandAnd args).map (·, g)
  | .do => (expandDo tem args).map (·, g + 1)
  | .while => (expandWhile tem args).map (·, g + 1)
  | .prog1 => (expandProg1 tem args).map (·, g + 1)
  | .prog2 => (expandProg2 args).map (·, g)
  | _ => none

/-- The state of the interpreter: the contents of the locations of variables
(a location is an index), the counter of `gensym`, and the world. -/
structure St (P W : Type) where
  store : List (Val P)
  gens : Nat
  world : W

/-- Continue with the values of a computation; errors end it. -/
def andThen {V S V' S' : Type} (x : Option (Res V × S))
    (k : List V → S → Option (Res V' × S')) (e : Err → S → Res V' × S') :
    Option (Res V' × S') :=
  match x with
  | none => none
  | some (.err er, s) => some (e er s)
  | some (.ok vs, s) => k vs s

/-- What remains to be evaluated. -/
inductive Job (P : Type)
  /-- a form: `eval` (src/lisp.c:1816-1905) -/
  | expr (x : Sexp)
  /-- the arguments of a call: `eval_list` (src/lisp.c:1135-1169) -/
  | list (xs : Sexp)
  /-- `Fprogn` (src/lisp.c:2036-2066) -/
  | progn (xs : Sexp)
  /-- `Fcond` (src/lispcmds.c:1173-1215) -/
  | cond (xs : Sexp)
  /-- `Fsetq` (src/symbols.c:1126-1151), with the last value -/
  | setq (xs : Sexp) (res : Val P)
  /-- a special form or macro with its arguments -/
  | special (k : Kw) (xs : Sexp)
  /-- `eval_lambda` (src/lisp.c:1403-1457): `(lambda . lam)` called in the
  current environment -/
  | lambda (lam : Sexp) (args : List (Val P))
  /-- `apply` (src/lisp.c:1550-1750) -/
  | apply (f : Val P) (args : List (Val P))

/-- `bind_lambda_list` (src/lisp.c:1182-1400) for lambda lists of required
parameters (simplification: the others are in Verif/Lambda): each parameter is
bound to a new location holding its argument; surplus arguments are ignored.
The store is extended at its end. -/
def bindParams {P : Type} : Sexp → List (Val P) → Env → List (Val P) →
    Err ⊕ (Env × List (Val P))
  | .nil, _, env, store => .inr (env, store)
  | .cons (.sym s) ps, v :: vs, env, store =>
    bindParams ps vs ((s, store.length) :: env) (store ++ [v])
  | .cons (.sym s) _, [], _, _ => .inl (.missing s)
  | _, _, _, _ => .inl .syntax

/-- `Fsymbol_value` (src/symbols.c:836-880): the location of the symbol in the
environment, or else its binding in the structure. -/
def lookup {P W : Type} (s : Sym) (env : Env) (st : St P W) : Res (Val P) :=
  match env.lookup s with
  | some l => match st.store[l]? with
    | some v => .ok [v]
    | none => .err (.void s)
  | none => match s with
    | .name x => match (table P).lookup x with
      | some v => .ok [v]
      | none => .err (.void s)
    | .gen _ => .err (.void s)

/-- Is it the false value? -/
def Val.isNil {P : Type} : Val P → Bool
  | .data .nil => true
  | _ => false

/-- The first value. -/
def hd {P : Type} (vs : List (Val P)) : Val P := vs.headD (.data .nil)

/-- What a function sees of a value. -/
def Val.view {P : Type} : Val P → Option Sexp
  | .data d => some d
  | _ => none

/-- Is it a lambda expression (src/lisp.c:1834-1835)? -/
def isLambda (x : Sexp) (env : Env) : Option Sexp :=
  match x with
  | .cons (.sym (.name "lambda")) lam =>
    if env.lookup (.name "lambda") = none then some lam else none
  | _ => none

/-- The evaluator.  Simplification: calls in tail position are made at once
instead of being thrown to the end of the tail position (src/lisp.c:1858-1888);
depth limit, interrupts, single stepping and garbage collection are left out.
`self` is the evaluator itself. -/
def step {P W : Type} (prim : P → List (Option Sexp) → W → Ans × W)
    (self : Job P → Env → St P W → Option (Res (Val P) × St P W))
    (j : Job P) (env : Env) (st : St P W) : Option (Res (Val P) × St P W) :=
  let fail := fun (e : Err) (s : St P W) => ((.err e, s) : Res (Val P) × St P W)
  match j with
  | .expr x =>
    match x with
    | .sym s => some (lookup s env st, st)
    | .cons h args =>
      match isLambda h env with
      | some lam =>
        andThen (self (.list args) env st)
          (fun vs s => self (.lambda lam vs) env s) fail
      | none =>
        andThen (self (.expr h) env st)
          (fun fs s => match hd fs with
            | .kw k => self (.special k args) env s
            | f => andThen (self (.list args) env s)
                (fun vs s => self (.apply f vs) env s) fail) fail
    | d => some (.ok [.data d], st)
  | .list xs =>
    match xs with
    | .cons a d =>
      andThen (self (.expr a) env st)
        (fun v s => andThen (self (.list d) env s)
          (fun vs s => some (.ok (hd v :: vs), s)) fail) fail
    | .nil => some (.ok [], st)
    | _ => some (.err .syntax, st)
  | .progn xs =>
    match xs with
    | .cons a (.cons b d) =>
      andThen (self (.expr a) env st)
        (fun _ s => self (.progn (.cons b d)) env s) fail
    | .cons a _ => self (.expr a) env st
    | _ => some (.ok [.data .nil], st)
  | .cond xs =>
    match xs with
    | .cons (.cons c fs) rest =>
      andThen (self (.expr c) env st)
        (fun v s =>
          if (hd v).isNil then self (.cond rest) env s
          else match fs with
            | .cons _ _ => self (.progn fs) env s
            | _ => some (.ok [hd v], s)) fail
    | _ => some (.ok [.data .nil], st)
  | .setq xs res =>
    match xs with
    | .cons (.sym x) (.cons e rest) =>
      andThen (self (.expr e) env st)
        (fun v s => match env.lookup x with
          | some l =>
            self (.setq rest (hd v)) env { s with store := s.store.set l (hd v) }
          | none => some (.err (.void x), s)) fail
    | _ => some (.ok [res], st)
  | .special k xs =>
    match k with
    | .quote => match xs with
      | .cons d _ => some (.ok [.data d], st)
      | _ => some (.err .syntax, st)
    | .lambda => some (.ok [.clos xs env], st)
    | .cond => self (.cond xs) env st
    | .setq => self (.setq xs (.data .nil)) env st
    | .progn => self (.progn xs) env st
    | k => match xs.toList.bind (expand k · st.gens) with
      | some (form, g) => self (.expr form) env { st with gens := g }
      | none => some (.err .syntax, st)
  | .lambda lam vs =>
    match lam with
    | .cons ps body => match bindParams ps vs env st.store with
      | .inr (env', store) =>
        self (.progn body) env' { st with store := store }
      | .inl e => some (.err e, st)
    | _ => some (.err .syntax, st)
  | .apply f vs =>
    match f with
    | .clos lam env' => self (.lambda lam vs) env' st
    | .fn f =>
      let r := callFn prim f (vs.map Val.view) st.world
      some (r.1.toRes .data vs, { st with world := r.2 })
    | _ => some (.err .notFunction, st)

/-- The evaluator (`rep_eval`, src/lisp.c:1907-2005); `none`: not finished
within the given number of nested evaluations. -/
def ev {P W : Type} (prim : P → List (Option Sexp) → W → Ans × W) :
    Nat → Job P → Env → St P W → Option (Res (Val P) × St P W)
  | 0, _, _, _ => none
  | n + 1, j, env, st => step prim (ev prim n) j env st

end Rep.Forms
