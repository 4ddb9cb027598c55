/-
Internal definitions: the scanner of lisp/rep/lang/define.jl, which rewrites the
bodies of `define`, `lambda` and the `let` forms.

It works on the list structure of Verif/Forms and expands macros with the
macros' own functions (`expand`); its result is run by the evaluator of
Verif/Forms.
-/
import Verif.Forms.Model

namespace Rep.Define
open Rep.Forms

/-- What the scanner is asked to do: `define-scan-form`, `define-scan-body`,
`define-scan-internals` or `define-parse` of an object. -/
inductive Task
  | form (x : Sexp)
  | body (x : Sexp)
  | internals (x : Sexp)
  | parse (x : Sexp)

/-- The result, with the counter of `gensym`; `none`: an error, or not finished. -/
abbrev Out := Option (Sexp × Nat)

/-- `mapcar` (src/lispcmds.c:522-570), from left to right, of a function that may
use `gensym`.  Simplification: a list that does not end with the empty list,
whose last `cdr` the program ignores, has no result (see the uses of
`toList`). -/
def mapG (f : Sexp → Nat → Out) : List Sexp → Nat → Option (List Sexp × Nat)
  | [], g => some ([], g)
  | x :: xs, g =>
    (f x g).bind fun y => (mapG f xs y.2).map fun ys => (y.1 :: ys.1, ys.2)

/-- The head of the form, if it is a symbol that is not bound locally
(define.jl:86). -/
def headWord (bound : List Sexp) : Sexp → Option String
  | .sym (.name s) => if nm s ∈ bound then none else some s
  | _ => none

/-- The macros among the forms of the table of Verif/Forms
(`symbol_value_in_structure`, src/macros.c:97-100).  Simplification: macros of
the user are left out. -/
def macroOf : String → Option Kw
  | "let" => some .let
  | "let*" => some .letStar
  | "letrec" => some .letrec
  | "if" => some .if
  | "case" => some .case
  | "when" => some .when
  | "unless" => some .unless
  | "or" => some .or
  | "and" => some .and
  | "do" => some .do
  | "while" => some .while
  | "prog1" => some .prog1
  | "prog2" => some .prog2
  | _ => none

/-- `(cons (car x) (define-scan-body (cdr x)))` for a binding that is a list
(define.jl:99-106, 132-135); `self` is the scanner. -/
def scanBinding (self : Task → List Sexp → Nat → Out) (bound : List Sexp) :
    Sexp → Nat → Out
  | .cons a d, g => (self (.body d) bound g).map fun y => (.cons a y.1, y.2)
  | x, g => some (x, g)

/-- The variable of a binding of `let` (define.jl:101, 105). -/
def bindingVar : Sexp → Sexp
  | .cons a _ => a
  | x => x

/-- `(or (car x) x)` (define.jl:129), which also is the variable of a parameter
`(or (caar rest) (car rest))` (define.jl:184). -/
def carOr (x : Sexp) : Sexp := if x.car ≠ .nil then x.car else x

/-- The bindings of `let*` (define.jl:110-125): each variable is taken as bound
before its forms are scanned. -/
def scanStar (self : Task → List Sexp → Nat → Out) :
    List Sexp → List Sexp → Nat → Option (List Sexp × List Sexp × Nat)
  | [], bound, g => some ([], bound, g)
  | x :: xs, bound, g =>
    (scanBinding self (bindingVar x :: bound) x g).bind fun y =>
      (scanStar self xs (bindingVar x :: bound) y.2).map fun ys => (y.1 :: ys.1, ys.2)

/-- The arguments of `setq` (define.jl:147-153). -/
def scanSetq (self : Task → List Sexp → Nat → Out) (bound : List Sexp) :
    Sexp → Nat → Out
  | .nil, g => some (.nil, g)
  | .cons x (.cons e rest), g =>
    (self (.form e) bound g).bind fun y =>
      (scanSetq self bound rest y.2).map fun ys => (.cons x (.cons y.1 ys.1), ys.2)
  | .cons x _, g => some (.ofList [x, .nil], g)
  | _, g => some (.ofList [.nil, .nil], g)

/-- The keywords of lambda lists (define.jl:181-183).  Simplification: `#!`
keywords are symbols with that name. -/
def lambdaKeys : List Sexp :=
  [nm "#!optional", nm "#!key", nm "#!rest", nm "&optional", nm "&rest"]

/-- The variables of a lambda list (define.jl:178-185), last first.
Simplification: a symbol in place of the rest of the list, whose `cdr` ends the
loop, is not taken as a variable. -/
def lambdaVars : Sexp → List Sexp → List Sexp
  | .cons p ps, vars =>
    if carOr p ∈ lambdaKeys then lambdaVars ps vars else lambdaVars ps (carOr p :: vars)
  | _, vars => vars

/-- Is it a string, or an `interactive` declaration (define.jl:189)?  Constants
are integers in Verif/Forms; `str` tells which of them stand for strings. -/
def isHeader (str : Int → Bool) : Sexp → Bool
  | .int n => str n
  | .cons a _ => decide (a = nm "interactive")
  | _ => false

/-- The documentation strings and declarations at the start of the body of a
lambda expression, and the rest (define.jl:186-191). -/
def skipHeader (str : Int → Bool) : Sexp → List Sexp × Sexp
  | .cons a d =>
    if isHeader str a then (a :: (skipHeader str d).1, (skipHeader str d).2)
    else ([], .cons a d)
  | x => ([], x)

/-- The leading `define` forms of a body, parsed, and the rest
(define.jl:59-61). -/
def scanDefs (self : Task → List Sexp → Nat → Out) (bound : List Sexp) :
    Sexp → Nat → Option (List Sexp × Sexp × Nat)
  | .cons (.cons a args) rest, g =>
    if a = nm "define" then
      (self (.parse args) bound g).bind fun y =>
        (scanDefs self bound rest y.2).map fun ys => (y.1 :: ys.1, ys.2)
    else some ([], .cons (.cons a args) rest, g)
  | x, g => some ([], x, g)

/-- `(cons (car clause) (define-scan-body (cdr clause)))` for the clauses of
`case` (define.jl:162-163). -/
def scanClause (self : Task → List Sexp → Nat → Out) (bound : List Sexp)
    (x : Sexp) (g : Nat) : Out :=
  (self (.body x.cdr) bound g).map fun y => (.cons x.car y.1, y.2)

/-- A special form or macro call with the given head (define.jl:86-207), `args`
being the rest of the form.  Simplification: a `define` form which is not at the
start of a body, and which would define a global variable, is left out. -/
def scanWord (str : Int → Bool) (self : Task → List Sexp → Nat → Out)
    (w : String) (args : Sexp) (bound : List Sexp) (g : Nat) : Out :=
  if w = "let" then
    match args.car with
    | .sym _ => (args.toList.bind (expand .let · g)).bind fun y =>
        self (.form y.1) bound y.2
    | _ => args.car.toList.bind fun bs =>
      (mapG (scanBinding self bound) bs g).bind fun cs =>
        (self (.internals args.cdr) ((bs.map bindingVar).reverse ++ bound) cs.2).map fun y =>
          (.ofList [nm "let", .ofList cs.1, y.1], y.2)
  else if w = "let*" then
    args.car.toList.bind fun bs => (scanStar self bs bound g).bind fun cs =>
      (self (.internals args.cdr) cs.2.1 cs.2.2).map fun y =>
        (.ofList [nm "let*", .ofList cs.1, y.1], y.2)
  else if w = "letrec" then
    args.car.toList.bind fun bs =>
      (mapG (scanBinding self (bs.map carOr ++ bound)) bs g).bind fun cs =>
        (self (.internals args.cdr) (bs.map carOr ++ bound) cs.2).map fun y =>
          (.ofList [nm "letrec", .ofList cs.1, y.1], y.2)
  else if w = "let-fluids" then
    args.car.toList.bind fun bs =>
      (mapG (scanBinding self bound) bs g).bind fun cs =>
        (self (.internals args.cdr) bound cs.2).map fun y =>
          (.ofList [nm "let-fluids", .ofList cs.1, y.1], y.2)
  else if w = "setq" then
    (scanSetq self bound args g).map fun y => (.cons (nm "setq") y.1, y.2)
  else if w = "cond" then
    args.toList.bind fun cls =>
      (mapG (fun c g => self (.body c) bound g) cls g).map fun ys =>
        (.cons (nm "cond") (.ofList ys.1), ys.2)
  else if w = "case" then
    (self (.form args.car) bound g).bind fun k => args.cdr.toList.bind fun cls =>
      (mapG (scanClause self bound) cls k.2).map fun ys =>
        (.cons (nm "case") (.cons k.1 (.ofList ys.1)), ys.2)
  else if w = "condition-case" then
    (self (.body args.cdr) (args.car :: bound) g).map fun y =>
      (.cons (nm "condition-case") (.cons args.car y.1), y.2)
  else if w = "catch" ∨ w = "unwind-protect" ∨ w = "progn" then
    (self (.body args) bound g).map fun y => (.cons (nm w) y.1, y.2)
  else if w = "quote" ∨ w = "structure-ref" ∨ w = "structure" ∨ w = "define-structure" ∨
      w = "declare" then
    some (.cons (nm w) args, g)
  else if w = "lambda" then
    (self (.internals (skipHeader str args.cdr).2) (lambdaVars args.car [] ++ bound) g).map
      fun y => (.cons (nm "lambda") (.cons args.car
        (.ofList ((skipHeader str args.cdr).1 ++ [y.1]))), y.2)
  else if w = "defvar" then
    (self (.form args.cdr.car) bound g).map fun y =>
      (.cons (nm "defvar") (.cons args.car (.cons y.1 args.cdr.cdr)), y.2)
  else if w = "define" then none
  else match macroOf w with
    | some k => (args.toList.bind (expand k · g)).bind fun y => self (.form y.1) bound y.2
    | none => self (.body (.cons (nm w) args)) bound g

/-- The scanner; `self` is the scanner itself. -/
def scanStep (str : Int → Bool) (self : Task → List Sexp → Nat → Out) :
    Task → List Sexp → Nat → Out
  -- `define-scan-form` (define.jl:83-207)
  | .form x, bound, g =>
    match x with
    | .cons h args => match headWord bound h with
      | some w => scanWord str self w args bound g
      | none => self (.body x) bound g
    | x => some (x, g)
  -- `define-scan-body` (define.jl:72-74)
  | .body x, bound, g =>
    x.toList.bind fun xs => (mapG (fun e g => self (.form e) bound g) xs g).map fun ys =>
      (.ofList ys.1, ys.2)
  -- `define-scan-internals` (define.jl:56-70)
  | .internals x, bound, g =>
    (scanDefs self bound x g).bind fun ds => (self (.body ds.2.1) bound ds.2.2).map fun y =>
      if ds.1 ≠ [] then
        (.cons (nm "letrec") (.cons
          (.ofList (ds.1.map fun d => .ofList [d.car, d.cdr.car])) y.1), y.2)
      else if y.1.cdr = .nil then (y.1.car, y.2)
      else (.cons (nm "progn") y.1, y.2)
  -- `define-parse` (define.jl:50-54); the documentation string is left out
  | .parse x, bound, g =>
    match x.car with
    | .cons h ps =>
      self (.parse (.ofList [h, .cons (nm "lambda") (.cons ps x.cdr)])) bound g
    | x1 => (self (.form x.cdr.car) bound g).map fun y => (.ofList [x1, y.1], y.2)

/-- The scanner; `none` also when it has not finished within the given number of
nested calls. -/
def scan (str : Int → Bool) : Nat → Task → List Sexp → Nat → Out
  | 0, _, _, _ => none
  | n + 1, t, bound, g => scanStep str (scan str n) t bound g

/-- The macro `with-internal-definitions` (define.jl:240-242) of the forms. -/
def withInternalDefinitions (str : Int → Bool) (n : Nat) (forms : Sexp) : Option Sexp :=
  (scan str n (.internals forms) [] 0).map Prod.fst

end Rep.Define
