/-
The forms of the language that the model of the compiler covers, the values they compute with, and
the interpreter for them (src/lisp.c, src/lispcmds.c, src/symbols.c, lisp/rep/lang/interpreter.jl).
-/

namespace Rep.Compile

/-- A symbol, used as the name of a variable. -/
abbrev Name := Nat

/-- Self-evaluating and quoted constants. -/
inductive Atom
  | nil
  | t
  | int (n : Int)
  | sym (s : Nat)
  deriving DecidableEq, Repr

mutual
/-- Forms, after macro expansion.  Simplified: parameters are all required ones, variables are not
special, and a body of several forms is a nest of `seq`s (the empty body is `nil`). -/
inductive Exp
  /-- `'A`, or a self-evaluating constant -/
  | quote (a : Atom)
  | var (x : Name)
  /-- `(setq X E)` -/
  | set (x : Name) (e : Exp)
  /-- `(progn A B)` -/
  | seq (a b : Exp)
  /-- `(cond CLAUSE...)`, which `if`, `when` and `unless` expand to -/
  | cond (cs : Clauses)
  /-- `(while C B)` -/
  | while (c b : Exp)
  /-- `(lambda (P...) B)` -/
  | lam (ps : List Name) (b : Exp)
  /-- `(F A...)`, where `F` is not a lambda expression -/
  | call (f : Exp) (as : Exps)
  /-- `((lambda (P...) B) A...)`, which `let` expands to -/
  | inl (ps : List Name) (b : Exp) (as : Exps)
  /-- `(let* (BINDING...) B)` -/
  | lets (bs : Binds) (b : Exp)
  /-- `(letrec (BINDING...) B)`, except for what is written as `named` -/
  | letrec (bs : Binds) (b : Exp)
  /-- `(letrec ((X (lambda (P...) B))) (X A...))`, which a named `let` expands to -/
  | named (x : Name) (ps : List Name) (b : Exp) (as : Exps)
inductive Exps
  | nil
  | cons (e : Exp) (es : Exps)
inductive Clauses
  | nil
  /-- `(C)` -/
  | test (c : Exp) (r : Clauses)
  /-- `(C B)` -/
  | act (c b : Exp) (r : Clauses)
inductive Binds
  | nil
  | cons (x : Name) (e : Exp) (r : Binds)
end

deriving instance Repr for Exp, Exps, Clauses, Binds

def Exps.length : Exps → Nat
  | .nil => 0
  | .cons _ es => es.length + 1

def Binds.names : Binds → List Name
  | .nil => []
  | .cons x _ r => x :: r.names

def Clauses.isNil : Clauses → Bool
  | .nil => true
  | _ => false

/-- The value of the innermost entry for a name in an association list (`assq`). -/
def look {α : Type} (x : Name) : List (Name × α) → Option α
  | [] => none
  | (y, a) :: r => if y = x then some a else look x r

/-! ### Values -/

/-- Values; `F` is what a closure is made of, which differs between the interpreter and compiled
code.  Simplified: pairs are immutable. -/
inductive Val (F : Type)
  | atom (a : Atom)
  | pair (a d : Val F)
  | prim (p : Nat)
  | fn (f : F)
  deriving DecidableEq, Repr

namespace Val
def nil {F : Type} : Val F := .atom .nil
def isNil {F : Type} : Val F → Bool
  | .atom .nil => true
  | _ => false
end Val

/-- Two values have the same shape, and the closures in them are related by `R`. -/
inductive VRel {F G : Type} (R : F → G → Prop) : Val F → Val G → Prop
  | atom (a : Atom) : VRel R (.atom a) (.atom a)
  | pair {a a' d d'} : VRel R a a' → VRel R d d' → VRel R (.pair a d) (.pair a' d')
  | prim (p : Nat) : VRel R (.prim p) (.prim p)
  | fn {f g} : R f g → VRel R (.fn f) (.fn g)

/-- Lists related element by element. -/
inductive LRel {α β : Type} (R : α → β → Prop) : List α → List β → Prop
  | nil : LRel R [] []
  | cons {a b as bs} : R a b → LRel R as bs → LRel R (a :: as) (b :: bs)

/-- The subrs of the system, which are called by both kinds of code.  `none` is an error.  They
may pass closures on but neither call them nor look into them (`rel`). -/
structure Prims where
  run : {F : Type} → Nat → List (Val F) → Option (Val F)
  rel : ∀ {F G : Type} (R : F → G → Prop) (p : Nat) (as : List (Val F)) (bs : List (Val G)),
    LRel (VRel R) as bs →
      match run p as, run p bs with
      | some v, some w => VRel R v w
      | none, none => True
      | _, _ => False

/-- What is signalled; the data of the error is left out. -/
inductive Err
  | void
  | missing
  | invalid
  | prim
  deriving DecidableEq, Repr

/-! ### The interpreter -/

/-- A lexical environment: the innermost binding first (`rep_env`, src/symbols.c:638). -/
abbrev Env := List (Name × Nat)

/-- `funarg`: a lambda expression and the environment it closes over. -/
structure Clo where
  ps : List Name
  body : Exp
  env : Env

abbrev SVal := Val Clo

/-- The bindings made so far, which are never reused, and the global variables. -/
structure SSt where
  σ : List SVal
  g : Name → Option SVal

inductive SRes (α : Type)
  | ok (a : α) (s : SSt)
  | err (e : Err) (s : SSt)

/-- `Fsymbol_value` (src/symbols.c:836): the lexical binding, or else the global one. -/
def getVar (ρ : Env) (s : SSt) (x : Name) : SRes SVal :=
  match look x ρ with
  | some l => match s.σ[l]? with
    | some v => .ok v s
    | none => .err .void s
  | none => match s.g x with
    | some v => .ok v s
    | none => .err .void s

/-- `Freal_set` (src/symbols.c:972). -/
def setVar (ρ : Env) (s : SSt) (x : Name) (v : SVal) : SSt :=
  match look x ρ with
  | some l => { s with σ := s.σ.set l v }
  | none => { s with g := fun y => if y = x then some v else s.g y }

/-- `bind_lambda_list_1` (src/lisp.c:1154-1370) for required parameters: they are bound in order,
so that the last one is the innermost; further arguments are ignored. -/
def bindPs (ps : List Name) (vs : List SVal) (ρ : Env) (s : SSt) : Option (Env × SSt) :=
  if vs.length < ps.length then none
  else some ((ps.zip (List.range' s.σ.length ps.length)).reverse ++ ρ,
    { s with σ := s.σ ++ vs.take ps.length })

mutual
/-- `eval` (src/lisp.c:1816).  The first argument bounds the depth of the recursion; `none`: it
was not enough. -/
def eval (P : Prims) : Nat → Env → SSt → Exp → Option (SRes SVal)
  | 0, _, _, _ => none
  | _ + 1, _, s, .quote a => some (.ok (.atom a) s)
  | _ + 1, ρ, s, .var x => some (getVar ρ s x)
  -- `Fsetq`, src/symbols.c:1126
  | n + 1, ρ, s, .set x e => match eval P n ρ s e with
    | some (.ok v s) => some (.ok v (setVar ρ s x v))
    | r => r
  -- `Fprogn`, src/lisp.c:2036
  | n + 1, ρ, s, .seq a b => match eval P n ρ s a with
    | some (.ok _ s) => eval P n ρ s b
    | r => r
  | n + 1, ρ, s, .cond cs => evalCls P n ρ s cs
  -- interpreter.jl:358-372: `(let TEM () (cond (C (progn B) (TEM))))`
  | n + 1, ρ, s, .while c b => match eval P n ρ s c with
    | some (.ok v s) =>
      if v.isNil then some (.ok .nil s)
      else match eval P n ρ s b with
        | some (.ok _ s) => eval P n ρ s (.while c b)
        | r => r
    | r => r
  -- `Flambda`, src/lispcmds.c:108
  | _ + 1, ρ, s, .lam ps b => some (.ok (.fn ⟨ps, b, ρ⟩) s)
  | n + 1, ρ, s, .call f as => match eval P n ρ s f with
    | some (.ok v s) => match evalArgs P n ρ s as with
      | some (.ok vs s) => apply P n v vs s
      | some (.err e s) => some (.err e s)
      | none => none
    | r => r
  -- src/lisp.c:1834-1856
  | n + 1, ρ, s, .inl ps b as => match evalArgs P n ρ s as with
    | some (.ok vs s) => match bindPs ps vs ρ s with
      | some (ρ, s) => eval P n ρ s b
      | none => some (.err .missing s)
    | some (.err e s) => some (.err e s)
    | none => none
  -- interpreter.jl:152-161: nested `let`s
  | n + 1, ρ, s, .lets bs b => evalLets P n ρ s bs b
  -- interpreter.jl:163-176: the variables are bound to nil, then set in order
  | n + 1, ρ, s, .letrec bs b =>
    match bindPs bs.names (bs.names.map fun _ => .nil) ρ s with
    | some (ρ, s) => evalSets P n ρ s bs b
    | none => none
  -- as `letrec`; the function is fetched before the arguments are evaluated
  | n + 1, ρ, s, .named x ps b as =>
    let f : SVal := .fn ⟨ps, b, (x, s.σ.length) :: ρ⟩
    match evalArgs P n ((x, s.σ.length) :: ρ) { s with σ := s.σ ++ [f] } as with
    | some (.ok vs s) => apply P n f vs s
    | some (.err e s) => some (.err e s)
    | none => none

/-- `eval_list` (src/lisp.c:1111): from left to right. -/
def evalArgs (P : Prims) : Nat → Env → SSt → Exps → Option (SRes (List SVal))
  | 0, _, _, _ => none
  | _ + 1, _, s, .nil => some (.ok [] s)
  | n + 1, ρ, s, .cons e es => match eval P n ρ s e with
    | some (.ok v s) => match evalArgs P n ρ s es with
      | some (.ok vs s) => some (.ok (v :: vs) s)
      | r => r
    | some (.err e s) => some (.err e s)
    | none => none

/-- `Fcond` (src/lispcmds.c:1173). -/
def evalCls (P : Prims) : Nat → Env → SSt → Clauses → Option (SRes SVal)
  | 0, _, _, _ => none
  | _ + 1, _, s, .nil => some (.ok .nil s)
  | n + 1, ρ, s, .test c r => match eval P n ρ s c with
    | some (.ok v s) => if v.isNil then evalCls P n ρ s r else some (.ok v s)
    | r => r
  | n + 1, ρ, s, .act c b r => match eval P n ρ s c with
    | some (.ok v s) => if v.isNil then evalCls P n ρ s r else eval P n ρ s b
    | r => r

/-- The bindings of a `let*`, then its body. -/
def evalLets (P : Prims) : Nat → Env → SSt → Binds → Exp → Option (SRes SVal)
  | 0, _, _, _, _ => none
  | n + 1, ρ, s, .nil, b => eval P n ρ s b
  | n + 1, ρ, s, .cons x e r, b => match eval P n ρ s e with
    | some (.ok v s) => evalLets P n ((x, s.σ.length) :: ρ) { s with σ := s.σ ++ [v] } r b
    | r => r

/-- The assignments of a `letrec`, then its body. -/
def evalSets (P : Prims) : Nat → Env → SSt → Binds → Exp → Option (SRes SVal)
  | 0, _, _, _, _ => none
  | n + 1, ρ, s, .nil, b => eval P n ρ s b
  | n + 1, ρ, s, .cons x e r, b => match eval P n ρ s e with
    | some (.ok v s) => evalSets P n ρ (setVar ρ s x v) r b
    | r => r

/-- `apply` and `eval_lambda` (src/lisp.c:1551, 1404). -/
def apply (P : Prims) : Nat → SVal → List SVal → SSt → Option (SRes SVal)
  | 0, _, _, _ => none
  | n + 1, .fn c, vs, s => match bindPs c.ps vs c.env s with
    | some (ρ, s) => eval P n ρ s c.body
    | none => some (.err .missing s)
  | _ + 1, .prim p, vs, s => match P.run p vs with
    | some v => some (.ok v s)
    | none => some (.err .prim s)
  | _ + 1, _, _, s => some (.err .invalid s)
end

/-- A file: functions defined by `defun`, and a form that is evaluated after that. -/
structure Prog where
  defs : List (Name × List Name × Exp)
  main : Exp

/-- The global variables of the interpreter when the form is evaluated: the functions of the file
over those of the system. -/
def Prog.globals (p : Prog) (lib : Name → Option Nat) : Name → Option SVal := fun x =>
  match look x p.defs.reverse with
  | some (ps, b) => some (.fn ⟨ps, b, []⟩)
  | none => (lib x).map .prim

/-- Loading the file with the interpreter. -/
def interpret (P : Prims) (lib : Name → Option Nat) (n : Nat) (p : Prog) : Option (SRes SVal) :=
  eval P n [] ⟨[], p.globals lib⟩ p.main

end Rep.Compile
