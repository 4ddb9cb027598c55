import Verif.Num.Model

/-
Calls of built-in functions, interpreted and compiled.

Interpreter: arguments are evaluated from left to right, then the function is applied
(src/lisp.c:1550-1690, src/numbers.c, src/lispcmds.c).  Compiler: constant folding and source
transformation (lisp/rep/vm/compiler/src.jl), the handlers of the functions that are instructions
(lisp/rep/vm/compiler/rep.jl:880-1277), calls of other functions (lisp/rep/vm/compiler/basic.jl:180-
228).  Machine: the instructions (src/lispmach.h:1178-2020).

Values are numbers, symbols, pairs and functions; lists are not modified.  What other functions do is
a parameter of the model: their results, and the values of variables, depend on everything that has
happened so far.  Floating point numbers and strings are left out: the logarithm and the matching of
strings are parameters.  The peephole optimiser, which comes after this, is C48.
-/

namespace Rep.Prim

open Rep.Number (Num Res)

/-- Built-in functions. -/
inductive B
  | add | sub | mul | div | max | min | logior | logxor | logand
  | eq | ne | gt | ge | lt | le
  | inc | dec | zerop | not | null | car | cdr | atom | consp | listp | numberp
  | caar | cadr | cdar | cddr | caddr
  | cons | nth | nthcdr
  | log | smatch
  deriving DecidableEq

inductive Val
  | nil
  | t
  | num (n : Num)
  | sym (s : Nat)
  | cons (a d : Val)
  | prim (b : B)
  | ext (i : Nat)
  deriving DecidableEq

/-- What happened: calls of other functions, and of functions that set the match data. -/
inductive Event
  | call (i : Nat) (args : List Val)
  | matched (re s : Val)
  deriving DecidableEq

abbrev Trace := List Event

inductive Err
  | badArg | missing | arith | invalid | void
  | thrown (n : Nat)
  deriving DecidableEq

/-- A value, a non-local exit, or undefined behaviour. -/
inductive Out (α : Type)
  | ok (v : α) (tr : Trace)
  | err (e : Err) (tr : Trace)
  | ub
  deriving DecidableEq

def Out.bind {α β : Type} (o : Out α) (f : α → Trace → Out β) : Out β :=
  match o with
  | .ok v tr => f v tr
  | .err e tr => .err e tr
  | .ub => .ub

/-- What is not modelled. -/
structure World where
  /-- a function that is not built in -/
  ext : Nat → List Val → Trace → Except Nat Val
  /-- the value of a variable -/
  look : Nat → Trace → Option Val
  /-- `rep_value_cmp` of values that are not numbers -/
  cmp : Val → Val → Int
  /-- `log` -/
  lg : Val → Option Val → Res Val
  /-- `string-match` -/
  smatch : Val → Val → Res Val

/-- The error without the position of the argument. -/
def out {α : Type} (r : Res α) (tr : Trace) : Out α :=
  match r with
  | .ok v => .ok v tr
  | .arithError => .err .arith tr
  | .argError _ => .err .badArg tr
  | .missingArg _ => .err .missing tr
  | .ub => .ub

def toNum : Val → Number.Val
  | .num n => .num n
  | _ => .other

def ofNum (r : Res Num) : Res Val := r.bind fun n => .ok (.num n)

def ofBool (b : Bool) : Val := if b then .t else .nil

/-- `rep_NUMBERP`: a number that is not a fixnum. -/
def isBig : Val → Bool
  | .num (.fix _) => false
  | .num _ => true
  | _ => false

/-- `rep_value_cmp` (values.c:161-173, numbers.c:816-830). -/
def valueCmp (W : World) (a b : Val) : Int :=
  match a, b with
  | .num x, .num y => Number.valueCmp x y
  | .num _, _ => 1
  | _, _ => W.cmp a b

/-- `rep_compare_numbers` (numbers.c:784-814). -/
def compareNumbers (a b : Val) : Int :=
  match a, b with
  | .num x, .num y => Number.compare x y
  | _, _ => 1

/-- The comparison in `APPLY_COMPARISON`, `rep_number_max` and `rep_number_min` (lispcmds.c:1649-
1652, numbers.c:1736-1743). -/
def sign (W : World) (a b : Val) : Int :=
  if isBig a || isBig b then compareNumbers a b else valueCmp W a b

/-- `rep_number_max`, `rep_number_min` (numbers.c:1732-1760). -/
def max2 (W : World) (a b : Val) : Val := if sign W a b ≥ 0 then a else b
def min2 (W : World) (a b : Val) : Val := if sign W a b ≤ 0 then a else b

/-- `foldv` (numbers.c:1336-1352). -/
def foldv (f : Val → Val → Val) : List Val → Res Val
  | [] => .missingArg 1
  | a :: rest => .ok (rest.foldl f a)

/-- `APPLY_COMPARISON` (lispcmds.c:1642-1656). -/
def comparison (W : World) (op : Int → Bool) : List Val → Res Val
  | [] => .missingArg 1
  | [_] => .missingArg 2
  | a :: b :: rest => .ok (ofBool (go a (b :: rest)))
where
  go (a : Val) : List Val → Bool
    | [] => true
    | b :: rest => op (sign W a b) && go b rest

def isEq (s : Int) : Bool := s == 0
def isGt (s : Int) : Bool := decide (s > 0)
def isGe (s : Int) : Bool := decide (s ≥ 0)
def isLt (s : Int) : Bool := decide (s < 0)
def isLe (s : Int) : Bool := decide (s ≤ 0)

def car : Val → Val
  | .cons a _ => a
  | _ => .nil

def cdr : Val → Val
  | .cons _ d => d
  | _ => .nil

def listp : Val → Bool
  | .nil => true
  | .cons _ _ => true
  | _ => false

def consp : Val → Bool
  | .cons _ _ => true
  | _ => false

def numberp : Val → Bool
  | .num _ => true
  | _ => false

/-- The loop of `nth` and `nthcdr` (lispcmds.c:467, 490), and of `list_ref` (lispmach.h:158). -/
def drop : Nat → Val → Val
  | n + 1, .cons _ d => drop n d
  | _, v => v

/-- `Fnth`, `Fnthcdr` (lispcmds.c:454-498); `f` is applied to what remains. -/
def nthWith (f : Val → Val) (i l : Val) : Res Val :=
  match i with
  | .num (.fix n) => if !listp l then .argError 2 else if n < 0 then .argError 1 else
      .ok (f (drop n.toNat l))
  | _ => .argError 1

/-- Functions of one number. -/
def onNum (f : Num → Res Val) : Val → Res Val
  | .num n => f n
  | _ => .argError 1

def arg (args : List Val) (i : Nat) : Val := args.getD i .nil

/-- Functions written in Lisp with one parameter (data.jl:81-110). -/
def lisp1 (f : Val → Val) : List Val → Res Val
  | [] => .missingArg 1
  | a :: _ => .ok (f a)

def notV (r : Res Val) : Res Val := r.bind fun v => .ok (ofBool (v == .nil))

/-- Application of a built-in function without effects to arguments; `Subr1` and `Subr2` take what they need, nil for
missing arguments (lisp.c:1605-1655). -/
def pure (W : World) (b : B) (args : List Val) : Res Val :=
  match b with
  | .add => ofNum (Number.plus (args.map toNum))
  | .sub => ofNum (Number.minus (args.map toNum))
  | .mul => ofNum (Number.product (args.map toNum))
  | .div => ofNum (Number.divide (args.map toNum))
  | .max => foldv (max2 W) args
  | .min => foldv (min2 W) args
  | .logior => ofNum (Number.logiorV (args.map toNum))
  | .logxor => ofNum (Number.logxorV (args.map toNum))
  | .logand => ofNum (Number.logandV (args.map toNum))
  | .eq => comparison W isEq args
  | .ne => notV (comparison W isEq args)
  | .gt => comparison W isGt args
  | .ge => comparison W isGe args
  | .lt => comparison W isLt args
  | .le => comparison W isLe args
  | .inc => onNum (fun n => ofNum (Number.plus1 n)) (arg args 0)
  | .dec => onNum (fun n => ofNum (Number.sub1 n)) (arg args 0)
  | .zerop => onNum (fun n => .ok (ofBool (Number.zerop n))) (arg args 0)
  | .not => .ok (ofBool (arg args 0 == .nil))
  | .null => .ok (ofBool (arg args 0 == .nil))
  | .car => .ok (car (arg args 0))
  | .cdr => .ok (cdr (arg args 0))
  | .atom => .ok (ofBool (!consp (arg args 0)))
  | .consp => .ok (ofBool (consp (arg args 0)))
  | .listp => .ok (ofBool (listp (arg args 0)))
  | .numberp => .ok (ofBool (numberp (arg args 0)))
  | .caar => lisp1 (fun x => car (car x)) args
  | .cadr => lisp1 (fun x => car (cdr x)) args
  | .cdar => lisp1 (fun x => cdr (car x)) args
  | .cddr => lisp1 (fun x => cdr (cdr x)) args
  | .caddr => lisp1 (fun x => car (cdr (cdr x))) args
  | .cons => .ok (.cons (arg args 0) (arg args 1))
  | .nth => nthWith car (arg args 0) (arg args 1)
  | .nthcdr => nthWith id (arg args 0) (arg args 1)
  | .log => W.lg (arg args 0) (if arg args 1 = .nil then none else some (arg args 1))
  | .smatch => W.smatch (arg args 0) (arg args 1)

/-- Functions with effects set the match data first. -/
def prim (W : World) (b : B) (args : List Val) (tr : Trace) : Out Val :=
  out (pure W b args) (if b = .smatch then tr ++ [.matched (arg args 0) (arg args 1)] else tr)

/-- `apply` (lisp.c:1548-1680). -/
def applyFun (W : World) (f : Val) (args : List Val) (tr : Trace) : Out Val :=
  match f with
  | .prim b => prim W b args tr
  | .ext i =>
    match W.ext i args tr with
    | .ok v => .ok v (tr ++ [.call i args])
    | .error n => .err (.thrown n) (tr ++ [.call i args])
  | _ => .err .invalid tr

/-- The elements of a list, until something that is not a pair (lisp.c:2374-2386). -/
def elems : Val → List Val
  | .cons a d => a :: elems d
  | _ => []

/-- Forms.  `app` is the call of a function that is the value of a form, with `funcall` or by the name
of a variable; `call` is the call of a built-in function by its name; `apply` is the call of `apply`. -/
inductive Form
  | const (v : Val)
  | var (x : Nat)
  | app (f : Form) (args : List Form)
  | call (b : B) (args : List Form)
  | apply (args : List Form)

/-- `Fapply` after the evaluation of its arguments (lisp.c:1782-1812). -/
def applyArgs (W : World) (vs : List Val) (tr : Trace) : Out Val :=
  match vs with
  | [] => .err .missing tr
  | _ =>
    let l := vs.getLast?.getD .nil
    if !listp l then .err .badArg tr
    else
      match vs.dropLast ++ elems l with
      | [] => .err .missing tr
      | f :: args => applyFun W f args tr

mutual
/-- `eval` (lisp.c:1815-1960). -/
def eval (W : World) : Form → Trace → Out Val
  | .const v, tr => .ok v tr
  | .var x, tr =>
    match W.look x tr with
    | some v => .ok v tr
    | none => .err .void tr
  | .app f args, tr =>
    (eval W f tr).bind fun f tr => (evalArgs W args tr).bind fun vs tr => applyFun W f vs tr
  | .call b args, tr => (evalArgs W args tr).bind fun vs tr => prim W b vs tr
  | .apply args, tr => (evalArgs W args tr).bind fun vs tr => applyArgs W vs tr

/-- `eval_list` (lisp.c). -/
def evalArgs (W : World) : List Form → Trace → Out (List Val)
  | [], tr => .ok [] tr
  | f :: fs, tr => (eval W f tr).bind fun v tr => (evalArgs W fs tr).bind fun vs tr => .ok (v :: vs) tr
end

/-! ## The machine -/

/-- Instructions with one operand. -/
inductive Op1
  | neg | inc | dec | zerop | not | car | cdr | atom | consp | listp | numberp
  | caar | cadr | cdar | cddr
  /-- `caddr`, `cadddr` and so on -/
  | ref (n : Nat)
  | log
  deriving DecidableEq

inductive Op2
  | add | sub | mul | div | max | min | lor | lxor | land | eq | gt | ge | lt | le
  | cons | nth | nthcdr
  deriving DecidableEq

inductive Insn
  | push (v : Val)
  | ref (x : Nat)
  | op1 (o : Op1)
  | op2 (o : Op2)
  | call (n : Nat)
  | apply
  deriving DecidableEq

def inFix (x : Int) : Bool := decide (Number.minInt ≤ x ∧ x ≤ Number.maxInt)

/-- An instruction that calls a function on two numbers, with `rep_DECLARE1` and `rep_DECLARE2`. -/
def num2 (f : Num → Num → Res Num) (a b : Val) : Res Val :=
  match a, b with
  | .num x, .num y => ofNum (f x y)
  | .num _, _ => .argError 2
  | _, _ => .argError 1

/-- `OP_ADD`, `OP_SUB` (lispmach.h:1228-1243, 1261-1276): fixnums first. -/
def fast2 (g : Int → Int → Int) (f : Num → Num → Res Num) (a b : Val) : Res Val :=
  match a, b with
  | .num (.fix x), .num (.fix y) =>
    if inFix (g x y) then .ok (.num (.fix (g x y))) else num2 f a b
  | _, _ => num2 f a b

/-- `OP_GT` and so on (lispmach.h:1343-1421, 2002-2020). -/
def rel (W : World) (op : Int → Bool) (a b : Val) : Val :=
  match a, b with
  | .num (.fix x), .num (.fix y) => ofBool (op (x - y))
  | _, _ =>
    if isBig a || isBig b then ofBool (op (compareNumbers a b)) else ofBool (op (valueCmp W a b))

/-- Instructions with one operand (lispmach.h:1182-1198, 1245-1309, 1423-1512, 1784-1848).  `OP_INC`
and `OP_DEC` test one bound only; the other one holds for every fixnum. -/
def exec1 (W : World) (o : Op1) (a : Val) : Res Val :=
  match o with
  | .neg =>
    match a with
    | .num (.fix x) => if inFix (-x) then .ok (.num (.fix (-x))) else ofNum (Number.neg (.fix x))
    | _ => onNum (fun n => ofNum (Number.neg n)) a
  | .inc =>
    match a with
    | .num (.fix x) => if inFix (x + 1) then .ok (.num (.fix (x + 1))) else ofNum (Number.plus1 (.fix x))
    | _ => onNum (fun n => ofNum (Number.plus1 n)) a
  | .dec =>
    match a with
    | .num (.fix x) => if inFix (x - 1) then .ok (.num (.fix (x - 1))) else ofNum (Number.sub1 (.fix x))
    | _ => onNum (fun n => ofNum (Number.sub1 n)) a
  | .zerop =>
    match a with
    | .num (.fix x) => .ok (ofBool (x == 0))
    | _ => onNum (fun n => .ok (ofBool (Number.zerop n))) a
  | .not => .ok (ofBool (a == .nil))
  | .car => .ok (car a)
  | .cdr => .ok (cdr a)
  | .atom => .ok (ofBool (!consp a))
  | .consp => .ok (ofBool (consp a))
  | .listp => .ok (ofBool (listp a))
  | .numberp => .ok (ofBool (numberp a))
  | .caar => .ok (match a with | .cons (.cons x _) _ => x | _ => .nil)
  | .cadr => .ok (match a with | .cons _ (.cons x _) => x | _ => .nil)
  | .cdar => .ok (match a with | .cons (.cons _ y) _ => y | _ => .nil)
  | .cddr => .ok (match a with | .cons _ (.cons _ y) => y | _ => .nil)
  | .ref n => .ok (car (drop n a))
  | .log => W.lg a none

/-- Instructions with two operands (lispmach.h:1178, 1208-1320, 1343-1421, 1717-1723, 2002). -/
def exec2 (W : World) (o : Op2) (a b : Val) : Res Val :=
  match o with
  | .add => fast2 (· + ·) Number.add a b
  | .sub => fast2 (· - ·) Number.sub a b
  | .mul => num2 Number.mul a b
  | .div => num2 Number.div a b
  | .max => .ok (max2 W a b)
  | .min => .ok (min2 W a b)
  | .lor => num2 Number.logior a b
  | .lxor => num2 Number.logxor a b
  | .land => num2 Number.logand a b
  | .eq => .ok (rel W isEq a b)
  | .gt => .ok (rel W isGt a b)
  | .ge => .ok (rel W isGe a b)
  | .lt => .ok (rel W isLt a b)
  | .le => .ok (rel W isLe a b)
  | .cons => .ok (.cons a b)
  | .nth => nthWith car a b
  | .nthcdr => nthWith id a b

/-- One instruction; the first element of the list is the top of the stack.  Taking from an empty
stack is undefined. -/
def step (W : World) (i : Insn) (st : List Val) (tr : Trace) : Out (List Val) :=
  match i with
  | .push v => .ok (v :: st) tr
  | .ref x =>
    match W.look x tr with
    | some v => .ok (v :: st) tr
    | none => .err .void tr
  | .op1 o =>
    match st with
    | a :: st => (out (exec1 W o a) tr).bind fun v tr => .ok (v :: st) tr
    | _ => .ub
  | .op2 o =>
    match st with
    | b :: a :: st => (out (exec2 W o a b) tr).bind fun v tr => .ok (v :: st) tr
    | _ => .ub
  | .call n =>
    match st.drop n with
    | f :: st' => (applyFun W f (st.take n).reverse tr).bind fun v tr => .ok (v :: st') tr
    | [] => .ub
  | .apply =>
    match st with
    | l :: f :: st => (applyFun W f (elems l) tr).bind fun v tr => .ok (v :: st) tr
    | _ => .ub

def exec (W : World) : List Insn → List Val → Trace → Out (List Val)
  | [], st, tr => .ok st tr
  | i :: is, st, tr => (step W i st tr).bind fun st tr => exec W is st tr

/-! ## The compiler -/

abbrev Code := List Insn

/-- Result of the compiler: code, an error, or undefined behaviour. -/
inductive C (α : Type)
  | ok (c : α)
  | error
  | crash
  deriving DecidableEq

def C.bind {α β : Type} (r : C α) (f : α → C β) : C β :=
  match r with
  | .ok v => f v
  | .error => .error
  | .crash => .crash

/-- `constant-functions` (rep.jl:41-56). -/
def foldable : B → Bool
  | .cons => false
  | _ => true

mutual
/-- `fold-constants` (src.jl:54-68): the constant, if all arguments are constant.  Calls of macros as
arguments are left out. -/
def fold (W : World) : Form → C (Option Val)
  | .call b args =>
    if foldable b then
      (foldArgs W args).bind fun
        | none => .ok none
        | some vs =>
          match pure W b vs with
          | .ok v => .ok (some v)
          | .ub => .crash
          | _ => .error
    else .ok none
  | .const v => .ok (some v)
  | _ => .ok none

def foldArgs (W : World) : List Form → C (Option (List Val))
  | [] => .ok (some [])
  | f :: fs =>
    (fold W f).bind fun
      | none => .ok none
      | some v => (foldArgs W fs).bind fun
        | none => .ok none
        | some vs => .ok (some (v :: vs))
end

/-- The code of argument `i`, or of nil (`(nth i form)`). -/
def argCode (cs : List (C Code)) (i : Nat) : C Code := cs.getD i (.ok [.push .nil])

/-- `compile-1-args`, `compile-2-args` (rep.jl:997-1015). -/
def args1 (cs : List (C Code)) (o : Op1) : C Code :=
  (argCode cs 0).bind fun c => .ok (c ++ [.op1 o])

def args2 (cs : List (C Code)) (o : Op2) : C Code :=
  (argCode cs 0).bind fun c => (argCode cs 1).bind fun d => .ok (c ++ d ++ [.op2 o])

def all : List (C Code) → C (List Code)
  | [] => .ok []
  | c :: cs => c.bind fun c => (all cs).bind fun cs => .ok (c :: cs)

/-- `compile-binary-op` (rep.jl:1031-1046). -/
def binary (cs : List (C Code)) (o : Op2) : C Code :=
  if cs.length < 2 then .error
  else (all cs).bind fun
    | [] => .error
    | c :: ds => .ok (c ++ ds.flatMap fun d => d ++ [.op2 o])

/-- A call with the `call` instruction (basic.jl:216-226). -/
def calling (f : C Code) (cs : List (C Code)) : C Code :=
  f.bind fun f => (all cs).bind fun ds => .ok (f ++ ds.flatten ++ [.call ds.length])

/-- `compile-transitive-relation` (rep.jl:1049-1076). -/
def relation (b : B) (cs : List (C Code)) (o : Op2) : C Code :=
  if cs.length < 2 then .error
  else if cs.length = 2 then args2 cs o
  else calling (.ok [.push (.prim b)]) cs

/-- `compile-nth`, `compile-nthcdr` (rep.jl:922-944), with `byte-nth-insns` and `byte-nthcdr-insns`
(bytecodes.jl:92-103): an index that is written in the form. -/
def literal : List Form → Option Nat
  | .const (.num (.fix n)) :: _ => if 0 ≤ n then some n.toNat else none
  | _ => none

def nthInsn : Nat → Option Op1
  | 0 => some .car
  | 1 => some .cadr
  | n + 2 => if n + 2 ≤ 7 then some (.ref (n + 2)) else none

def nthcdrInsn : Nat → Option (Option Op1)
  | 0 => some none
  | 1 => some (some .cdr)
  | 2 => some (some .cddr)
  | _ => none

def nthCode (args : List Form) (cs : List (C Code)) : C Code :=
  match (literal args).bind nthInsn with
  | some o => (argCode cs 1).bind fun c => .ok (c ++ [.op1 o])
  | none => args2 cs .nth

def nthcdrCode (args : List Form) (cs : List (C Code)) : C Code :=
  match (literal args).bind nthcdrInsn with
  | some (some o) => (argCode cs 1).bind fun c => .ok (c ++ [.op1 o])
  | some none => argCode cs 1
  | none => args2 cs .nthcdr

/-- `compile-log` (rep.jl:966-984). -/
def logCode (cs : List (C Code)) : C Code :=
  match cs with
  | [c] => c.bind fun c => .ok (c ++ [.op1 .log])
  | [c, d] => c.bind fun c => d.bind fun d => .ok (c ++ [.op1 .log] ++ d ++ [.op1 .log, .op2 .div])
  | _ => .ok []

/-- The handler of a function (rep.jl:1080-1276), given its arguments and the code of each of them. -/
def handler (b : B) (args : List Form) (cs : List (C Code)) : C Code :=
  match b with
  | .add => binary cs .add
  | .sub => if cs.length = 1 then args1 cs .neg else binary cs .sub
  | .mul => binary cs .mul
  | .div => binary cs .div
  | .max => binary cs .max
  | .min => binary cs .min
  | .logior => binary cs .lor
  | .logxor => binary cs .lxor
  | .logand => binary cs .land
  | .eq => relation .eq cs .eq
  | .ne => (relation .eq cs .eq).bind fun c => .ok (c ++ [.op1 .not])
  | .gt => relation .gt cs .gt
  | .ge => relation .ge cs .ge
  | .lt => relation .lt cs .lt
  | .le => relation .le cs .le
  | .inc => args1 cs .inc
  | .dec => args1 cs .dec
  | .zerop => args1 cs .zerop
  | .not => args1 cs .not
  | .null => args1 cs .not
  | .car => args1 cs .car
  | .cdr => args1 cs .cdr
  | .atom => args1 cs .atom
  | .consp => args1 cs .consp
  | .listp => args1 cs .listp
  | .numberp => args1 cs .numberp
  | .caar => args1 cs .caar
  | .cadr => args1 cs .cadr
  | .cdar => args1 cs .cdar
  | .cddr => args1 cs .cddr
  | .caddr => args1 cs (.ref 2)
  | .cons => args2 cs .cons
  | .nth => nthCode args cs
  | .nthcdr => nthcdrCode args cs
  | .log => logCode cs
  | .smatch => calling (.ok [.push (.prim .smatch)]) cs

/-- `compile-apply` (rep.jl:907-920). -/
def applyCode (cs : List (C Code)) : C Code :=
  (argCode cs 0).bind fun f => (all (cs.drop 1)).bind fun ds =>
    .ok (f ++ ds.flatten ++ List.replicate (ds.length - 1) (.op2 .cons) ++ [.apply])

mutual
/-- `compile-form-1` (basic.jl:142-231). -/
def compile (W : World) : Form → C Code
  | .const v => .ok [.push v]
  | .var x => .ok [.ref x]
  | .app f args => calling (compile W f) (compileEach W args)
  | .call b args =>
    (fold W (.call b args)).bind fun
      | some v => .ok [.push v]
      | none => handler b args (compileEach W args)
  | .apply args => applyCode (compileEach W args)

def compileEach (W : World) : List Form → List (C Code)
  | [] => []
  | f :: fs => compile W f :: compileEach W fs
end

end Rep.Prim
