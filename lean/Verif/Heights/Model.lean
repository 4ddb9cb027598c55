/-
`case`, conditionals and loops in compiled code.

A loop (a named `let`) whose name is only called in tail position is compiled in place, and the call
becomes a jump (lisp/rep/vm/compiler/rep.jl:447-510, inline.jl:128-233).  Before the jump the
instructions remove from the stack what has been pushed since the loop began; how much that is, the
compiler knows from `current-stack`, which it counts up and down while it emits instructions.

Forms have variables of their own, one for each loop and each parameter, and no functions are made, so
variables are places in a store; frames of bindings are left out (C59).  Jumps have the addresses that
the assembler gives them (C58).  Built-in functions are a parameter.
-/

namespace Rep.Heights

/-- Values; `none` is nil. -/
abbrev Val := Option Int

abbrev Store := Nat → Val

def put (σ : Store) (x : Nat) (v : Val) : Store := fun y => if y = x then v else σ y

/-- Built-in functions of two arguments; `none` is an error. -/
abbrev World := Nat → Val → Val → Option Val

mutual
/-- Forms. -/
inductive Exp
  | const (v : Val)
  | var (x : Nat)
  /-- `(F A B)` for a built-in function -/
  | op (f : Nat) (a b : Exp)
  /-- `(setq X E)` -/
  | set (x : Nat) (e : Exp)
  /-- `(progn A B)` -/
  | seq (a b : Exp)
  /-- `(cond (C A) (t B))` -/
  | cond (c a b : Exp)
  /-- `(case K CLAUSE...)` -/
  | case (k : Exp) (cs : Cases)
  /-- `(let LOOP ((X I)) B)` -/
  | loop (x : Nat) (i b : Exp)
  /-- `(LOOP E)`, where the loop is the `n`th around this place -/
  | jump (n : Nat) (e : Exp)
  /-- `((lambda (#!optional (X D)) B))` -/
  | opt (x : Nat) (d b : Exp)
inductive Cases
  | nil
  /-- `((K KS...) B)` -/
  | items (k : Val) (ks : List Val) (b : Exp) (r : Cases)
  /-- `(t B)` -/
  | other (b : Exp) (r : Cases)
end

/-! ## The interpreter -/

/-- A value, an error, or the call of a loop. -/
inductive Res
  | val (v : Val)
  | err
  | jump (n : Nat) (v : Val)

abbrev Eval := Option (Res × Store)

def Eval.bind (r : Eval) (f : Val → Store → Eval) : Eval :=
  match r with
  | some (.val v, σ) => f v σ
  | r => r

/-- The clause that is chosen (interpreter.jl:204-228): a clause with `t` is always. -/
def choose (v : Val) : Cases → Option Exp
  | .nil => none
  | .items k ks b r => if v ∈ k :: ks then some b else choose v r
  | .other b _ => some b

mutual
/-- Evaluation (src/lisp.c:1815-1960, lisp/rep/lang/interpreter.jl); `n` bounds the depth, `none` means
that it was too small. -/
def eval (W : World) : Nat → Exp → Store → Eval
  | 0, _, _ => none
  | n + 1, e, σ =>
    match e with
    | .const v => some (.val v, σ)
    | .var x => some (.val (σ x), σ)
    | .op f a b => Eval.bind (eval W n a σ) fun v σ => Eval.bind (eval W n b σ) fun w σ =>
        match W f v w with
        | some r => some (.val r, σ)
        | none => some (.err, σ)
    | .set x e => Eval.bind (eval W n e σ) fun v σ => some (.val v, put σ x v)
    | .seq a b => Eval.bind (eval W n a σ) fun _ σ => eval W n b σ
    | .cond c a b => Eval.bind (eval W n c σ) fun v σ => eval W n (if v.isSome then a else b) σ
    | .case k cs => Eval.bind (eval W n k σ) fun v σ =>
        match choose v cs with
        | some b => eval W n b σ
        | none => some (.val none, σ)
    | .loop x i b => Eval.bind (eval W n i σ) fun v σ => again W n x b (put σ x v)
    | .jump k e => Eval.bind (eval W n e σ) fun v σ => some (.jump k v, σ)
    | .opt x d b => Eval.bind (eval W n d σ) fun v σ => eval W n b (put σ x v)

/-- The calls of a loop. -/
def again (W : World) : Nat → Nat → Exp → Store → Eval
  | 0, _, _, _ => none
  | n + 1, x, b, σ =>
    match eval W n b σ with
    | some (.jump 0 v, σ) => again W n x b (put σ x v)
    | some (.jump (k + 1) v, σ) => some (.jump k v, σ)
    | r => r
end

/-! ## The machine -/

inductive Insn
  | push (v : Val)
  | ref (x : Nat)
  /-- takes a value from the stack -/
  | set (x : Nat)
  | dup
  | swap
  | pop
  | popAll
  | op (f : Nat)
  | eql
  /-- `memql` with the list of items, which has been pushed before it -/
  | memql (vs : List Val)
  /-- go on after so many instructions if the value taken is nil -/
  | jn (n : Nat)
  /-- go on after so many instructions -/
  | skip (n : Nat)
  | jmp (a : Nat)
  deriving DecidableEq

/-- A machine that runs, has an error, or has taken a value from an empty stack. -/
inductive Conf
  | run (pc : Nat) (st : List Val) (σ : Store)
  | err (σ : Store)
  | ub

/-- A value for which `memql` or `eql` is true. -/
def yes (b : Bool) : Val := if b then some 1 else none

/-- One instruction (src/lispmach.h:1051, 1150-1166, 1713, 1979, 1998). -/
def insn (W : World) (i : Insn) (pc : Nat) (st : List Val) (σ : Store) : Conf :=
  match i, st with
  | .push v, st => .run (pc + 1) (v :: st) σ
  | .ref x, st => .run (pc + 1) (σ x :: st) σ
  | .set x, v :: st => .run (pc + 1) st (put σ x v)
  | .dup, v :: st => .run (pc + 1) (v :: v :: st) σ
  | .swap, v :: w :: st => .run (pc + 1) (w :: v :: st) σ
  | .pop, _ :: st => .run (pc + 1) st σ
  | .popAll, _ => .run (pc + 1) [] σ
  | .op f, w :: v :: st =>
    match W f v w with
    | some r => .run (pc + 1) (r :: st) σ
    | none => .err σ
  | .eql, w :: v :: st => .run (pc + 1) (yes (v == w) :: st) σ
  | .memql vs, _ :: v :: st => .run (pc + 1) (yes (vs.contains v) :: st) σ
  | .jn n, v :: st => .run (if v.isSome then pc + 1 else pc + 1 + n) st σ
  | .skip n, st => .run (pc + 1 + n) st σ
  | .jmp a, st => .run a st σ
  | _, _ => .ub

/-- One step; a machine at the end of its code has finished. -/
def step (W : World) (P : List Insn) : Conf → Option Conf
  | .run pc st σ => (P[pc]?).map fun i => insn W i pc st σ
  | _ => none

/-- So many steps, or until there are no more. -/
def steps (W : World) (P : List Insn) : Nat → Conf → Conf
  | 0, c => c
  | n + 1, c =>
    match step W P c with
    | some c => steps W P n c
    | none => c

/-! ## The compiler -/

/-- A loop around the form (`lambda-record`, basic.jl:75-108): the address of its body, its variable,
and `current-stack` where the body begins. -/
structure Rec where
  label : Nat
  x : Nat
  sp : Nat

/-- `pop-between` (inline.jl:184-193). -/
def popBetween (top bottom : Nat) : List Insn :=
  if top = bottom then [] else if bottom = 0 then [.popAll] else List.replicate (top - bottom) .pop

/-- The comparison in `compile-case` (rep.jl:644-653). -/
def itemTest (k : Val) (ks : List Val) : List Insn :=
  match ks with
  | [] => [.dup, .push k, .eql]
  | _ => [.dup, .push none, .memql (k :: ks)]

mutual
/-- `compile-form-1` and the handlers of the special forms.  `p` is the address of the next
instruction, `h` is `current-stack`; the results are instructions and `current-stack` after them. -/
def comp (ctx : List Rec) (p h : Nat) : Exp → List Insn × Nat
  | .const v => ([.push v], h + 1)
  | .var x => ([.ref x], h + 1)
  -- `compile-2-args`, rep.jl:1006-1015
  | .op f a b =>
    let ca := comp ctx p h a
    let cb := comp ctx (p + ca.1.length) ca.2 b
    (ca.1 ++ cb.1 ++ [.op f], cb.2 - 1)
  -- `compile-set`, rep.jl:392-412
  | .set x e =>
    let c := comp ctx p h e
    (c.1 ++ [.dup, .set x], c.2)
  -- `compile-body`, basic.jl:236-250
  | .seq a b =>
    let ca := comp ctx p h a
    let cb := comp ctx (p + ca.1.length + 1) (ca.2 - 1) b
    (ca.1 ++ .pop :: cb.1, cb.2)
  -- `compile-cond`, rep.jl:550-618
  | .cond c a b =>
    let cc := comp ctx p h c
    let ca := comp ctx (p + cc.1.length + 1) (cc.2 - 1) a
    let cb := comp ctx (p + cc.1.length + 1 + ca.1.length + 1) (ca.2 - 1) b
    (cc.1 ++ .jn (ca.1.length + 1) :: ca.1 ++ .skip cb.1.length :: cb.1, cb.2 - 1 + 1)
  -- `compile-case`, rep.jl:626-670
  | .case k cs =>
    let ck := comp ctx p h k
    let cc := compCases ctx (p + ck.1.length) ck.2 false cs
    (ck.1 ++ cc.1 ++ [.swap, .pop], cc.2 + 1)
  -- `compile-letrec`, rep.jl:447-510, and `compile-lambda-inline`, inline.jl:128-182
  | .loop x i b =>
    let ci := comp ctx p h i
    let cb := comp (⟨p + ci.1.length + 1, x, ci.2 - 1⟩ :: ctx) (p + ci.1.length + 1) (ci.2 - 1) b
    (ci.1 ++ .set x :: cb.1, cb.2)
  -- `compile-tail-call`, inline.jl:204-233
  | .jump n e =>
    let c := comp ctx p h e
    match ctx[n]? with
    | some r => (c.1 ++ .set r.x :: popBetween (c.2 - 1) r.sp ++ [.jmp r.label], c.2 - 1 + 1)
    | none => (c.1, c.2)
  -- `push-inline-args`, inline.jl:42-100, with a default value
  | .opt x d b =>
    let cd := comp ctx p h d
    let cb := comp ctx (p + cd.1.length + 1) (cd.2 + 1 - 1) b
    (cd.1 ++ .set x :: cb.1, cb.2)

/-- The loop of `compile-case`, with the `(push ())` after it; `d` is `had-default`. -/
def compCases (ctx : List Rec) (p h : Nat) (d : Bool) : Cases → List Insn × Nat
  | .nil => (if d then [] else [.push none], h)
  | .items k ks b r =>
    let cb := comp ctx (p + (itemTest k ks).length + 1) h b
    let cr := compCases ctx (p + (itemTest k ks).length + 1 + cb.1.length + 1) (cb.2 - 1) d r
    (itemTest k ks ++ .jn (cb.1.length + 1) :: cb.1 ++ .skip cr.1.length :: cr.1, cr.2)
  | .other b r =>
    let cb := comp ctx p h b
    let cr := compCases ctx (p + cb.1.length + 1) (cb.2 - 1) true r
    (cb.1 ++ .skip cr.1.length :: cr.1, cr.2)
end

/-- The code of a form. -/
def compile (e : Exp) : List Insn := (comp [] 0 0 e).1

end Rep.Heights
