/-!
# The disassembler

Models `disassemble-1` (lisp/rep/vm/disassembler.jl:87-160).

Simplifications: a line is the address, the text of the table and the operand rather than the text with the operand formatted
into it; the listing of byte code inside the constants, which is made by the same function, is only marked.
-/
namespace Rep.Disasm

/-- lisp/rep/vm/disassembler.jl:37-85 `disassembler-opcodes` -/
def opcodes : List (Option String) :=
  [
   some "slot-ref", none, none, none, none, none, none, none,
   some "call", none, none, none, none, none, none, none,
   some "push", none, none, none, none, none, none, none,
   some "refg", none, none, none, none, none, none, none,
   some "setg", none, none, none, none, none, none, none,
   some "setn", none, none, none, none, none, none, none,
   some "slot-set", none, none, none, none, none, none, none,
   some "refn", none, none, none, none, none, none, none,
   some "ref", some "%set", some "fluid-ref", some "enclose", some "init-bind", some "unbind", some "dup", some "swap",
   some "pop", some "push\t()", some "push\tt", some "cons", some "car", some "cdr", some "rplaca", some "rplacd",
   some "nth", some "nthcdr", some "aset", some "aref", some "length", some "bind", some "add", some "neg",
   some "sub", some "mul", some "div", some "rem", some "lnot", some "not", some "lor", some "land",
   some "equal", some "eq", some "structure-ref", some "scm-test", some "gt", some "ge", some "lt", some "le",
   some "inc", some "dec", some "ash", some "zerop", some "null", some "atom", some "consp", some "listp",
   some "numberp", some "stringp", some "vectorp", some "catch", some "throw", some "binderr", some "return", some "unbindall",
   some "boundp", some "symbolp", some "get", some "put", some "errorpro", some "signal", some "quotient", some "reverse",
   some "nreverse", some "assoc", some "assq", some "rassoc", some "rassq", some "last", some "mapcar", some "mapc",
   some "member", some "memq", some "delete", some "delq", some "delete-if", some "delete-if-not", some "copy-sequence", some "sequencep",
   some "functionp", some "special-form-p", some "subrp", some "eql", some "lxor", some "max", some "min", some "filter",
   some "macrop", some "bytecodep", some "pushi\t0", some "pushi\t1", some "pushi\t2", some "pushi\t-1", some "pushi\t-2", some "pushi\t%d",
   some "pushi\t%d", some "pushi\t%d", some "caar", some "cadr", some "cdar", some "cddr", some "caddr", some "cadddr",
   some "caddddr", some "cadddddr", some "caddddddr", some "cadddddddr", some "floor", some "ceiling", some "truncate", some "round",
   some "apply", some "forbid", some "permit", some "exp", some "log", some "sin", some "cos", some "tan",
   some "sqrt", some "expt", some "swap2", some "mod", some "make-closure", some "unbindall-0", some "closurep", some "pop-all",
   some "fluid-set", some "fluid-bind", some "memql", some "num-eq", some "test-scm", some "test-scm-f", some "%define", some "spec-bind",
   some "set", some "required-arg", some "optional-arg", some "rest-arg", some "not-zero-p", some "keyword-arg", some "optional-arg*", some "keyword-arg*",
   none, none, none, none, none, none, none, none,
   none, none, none, none, none, none, none, none,
   none, none, none, none, none, none, none, none,
   none, none, none, none, none, none, none, none,
   none, none, none, none, none, none, none, none,
   some "ejmp\t%d", some "jpn\t%d", some "jpt\t%d", some "jmp\t%d", some "jn\t%d", some "jt\t%d", some "jnp\t%d", some "jtp\t%d"
  ]

/-- The constants, as far as they are told apart (disassembler.jl:112-120). -/
inductive Const
  /-- byte code -/
  | code
  /-- a list that starts with the symbol `byte-code` -/
  | form
  | other
  deriving DecidableEq

/-- What is written after the name of an instruction. -/
inductive Operand
  | none
  /-- a number -/
  | num (n : Int)
  /-- `#n` -/
  | slot (n : Nat)
  /-- `[n]` and the constant -/
  | const (n : Nat)
  /-- `[n]` and the listing of the constant -/
  | listing (n : Nat)
  deriving DecidableEq

structure Line where
  pc : Nat
  name : String
  operand : Operand
  deriving DecidableEq

inductive Out (α : Type)
  | ok (a : α)
  /-- an error is signalled -/
  | err
  deriving DecidableEq

def Out.bind {α β : Type} (x : Out α) (f : α → Out β) : Out β :=
  match x with
  | .ok a => f a
  | .err => .err

/-- `aref` -/
def aref {α : Type} (l : List α) (i : Nat) : Out α :=
  match l[i]? with
  | some x => .ok x
  | none => .err

/-- `(bytecode last-with-args)`, src/bytecodes.h:101 -/
def lastWithArgs : Nat := 0x3f

/-- `(bytecode last-before-jmps)`, src/bytecodes.h:276 -/
def lastBeforeJmps : Nat := 0xf7

/-- disassembler.jl:98-108: the argument of an instruction and the address of its last byte. -/
def argument (code : List Nat) (i c : Nat) : Out (Nat × Nat) :=
  if c % 8 < 6 then .ok (c % 8, i)
  else if c % 8 = 6 then (aref code (i + 1)).bind fun a => .ok (a, i + 1)
  else (aref code (i + 1)).bind fun a => (aref code (i + 2)).bind fun b => .ok (a * 256 + b, i + 2)

/-- disassembler.jl:109-134: the line of an instruction with an argument. -/
def argLine (consts : List Const) (op arg : Nat) : Out (String × Operand) :=
  if op = 0x08 then .ok ("call", .slot arg)
  else if op = 0x10 then
    (aref consts arg).bind fun c =>
      match c with
      | .code => .ok ("push", .listing arg)
      | .form => .err
      | .other => .ok ("push", .const arg)
  else if op = 0x38 then .ok ("refn", .slot arg)
  else if op = 0x28 then .ok ("setn", .slot arg)
  else if op = 0x00 then .ok ("slot-ref", .slot arg)
  else if op = 0x30 then .ok ("slot-set", .slot arg)
  else if op = 0x18 then (aref consts arg).bind fun _ => .ok ("refg", .const arg)
  else if op = 0x20 then (aref consts arg).bind fun _ => .ok ("setg", .const arg)
  else .ok ("", .none)

/-- disassembler.jl:140, 146 and 154 `(aref disassembler-opcodes c)`, with nil as format an error. -/
def nameOf (c : Nat) : Out String :=
  (aref opcodes c).bind fun n =>
    match n with
    | some s => .ok s
    | none => .err

/-- disassembler.jl:96-158: one instruction, and the address of its last byte. -/
def one (code : List Nat) (consts : List Const) (i c : Nat) : Out (Line × Nat) :=
  if c < lastWithArgs then
    (argument code i c).bind fun p => (argLine consts (c - c % 8) p.1).bind fun t => .ok (⟨i, t.1, t.2⟩, p.2)
  else if lastBeforeJmps < c then
    (aref code (i + 1)).bind fun a => (aref code (i + 2)).bind fun b =>
      (nameOf c).bind fun s => .ok (⟨i, s, .num ((a * 256 + b : Nat) : Int)⟩, i + 2)
  else if c = 0x9f then
    (aref code (i + 1)).bind fun a =>
      (nameOf c).bind fun s => .ok (⟨i, s, .num (if 128 ≤ a then -(256 - (a : Int)) else a)⟩, i + 1)
  else if c = 0xa0 ∨ c = 0xa1 then
    (aref code (i + 1)).bind fun a => (aref code (i + 2)).bind fun b =>
      (nameOf c).bind fun s => .ok (⟨i, s, .num (if c = 0xa0 then -((a * 256 + b : Nat) : Int) else ((a * 256 + b : Nat) : Int))⟩, i + 2)
  else
    (aref opcodes c).bind fun n =>
      match n with
      | some s => .ok (⟨i, s, .none⟩, i)
      | none => .ok (⟨i, "<unknown opcode %d>", .num c⟩, i)

/-- disassembler.jl:93-159 `disassemble-1` from address `i`; each turn passes at least one byte, so the first argument need not be more than the
length of the code. -/
def loop (code : List Nat) (consts : List Const) : Nat → Nat → Out (List Line)
  | 0, _ => .ok []
  | f + 1, i =>
    if i < code.length then
      (aref code i).bind fun c => (one code consts i c).bind fun p => (loop code consts f (p.2 + 1)).bind fun l => .ok (p.1 :: l)
    else .ok []

def disassemble (code : List Nat) (consts : List Const) : Out (List Line) := loop code consts code.length 0

end Rep.Disasm
