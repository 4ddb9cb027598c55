/-
The assembler of the byte-code compiler: lisp/rep/vm/assembler.jl.
-/

namespace Rep.Asm

/-- What the assembler looks at in a constant: a small integer, `()`, `t` or something else. -/
inductive View
  | fix (n : Int)
  | nil
  | t
  | other

/-- Constants, and `equal` of constants. -/
structure Consts (C : Type) where
  view : C → View
  equal : C → C → Bool

/-- The elements of the input, assembler.jl:45-56.  `op` stands for all instructions that are not
mentioned specially in the loop at assembler.jl:186-203; an instruction is its number in
bytecode-defs.jl:53-228. -/
inductive Insn (C : Type)
  | label (l : Nat)
  | push (c : C)
  | pushLabel (l : Nat)
  /-- `refg` and `setg` -/
  | global (op : Nat) (c : C)
  | jump (op : Nat) (l : Nat)
  | op (op : Nat) (arg : Option Int)

/-- A `:label`, assembler.jl:38-43. -/
structure Label where
  address : Option Nat := none
  forwards : List Nat := []

/-- The variables of `assemble`, assembler.jl:59-63.  `get-label` (65-69) makes a label that is not
in the table, so the table is a total function here. -/
structure Asm (C : Type) where
  code : List (Int × Nat) := []
  pc : Nat
  labels : Nat → Label := fun _ => {}
  constants : List (C × Nat) := []
  next : Nat := 0

inductive Err
  | overflow
  | spurious
  | type
  | twice
  deriving DecidableEq

variable {C : Type}

/-- `emit-byte-at`, assembler.jl:77-78 -/
def emitByteAt (b : Int) (a : Nat) (s : Asm C) : Asm C := { s with code := (b, a) :: s.code }

/-- `emit-byte`, assembler.jl:80-82 -/
def emitByte (b : Int) (s : Asm C) : Asm C := { emitByteAt b s.pc s with pc := s.pc + 1 }

/-- `emit-address-at`, assembler.jl:84-86 -/
def emitAddressAt (addr a : Nat) (s : Asm C) : Asm C := emitByteAt (addr % 256 : Nat) (a + 1) (emitByteAt (addr / 256 : Nat) a s)

/-- `emit-address`, assembler.jl:88-90 -/
def emitAddress (addr : Nat) (s : Asm C) : Asm C := { emitAddressAt addr s.pc s with pc := s.pc + 2 }

/-- `label-address-set` and `label-forwards-set`, assembler.jl:42-43 -/
def setLabel (l : Nat) (x : Label) (s : Asm C) : Asm C := { s with labels := fun m => if m = l then x else s.labels m }

/-- `emit-label-addr`, assembler.jl:92-96 -/
def emitLabelAddr (l : Nat) (s : Asm C) : Asm C :=
  match (s.labels l).address with
  | some a => emitAddress a s
  | none => { setLabel l { s.labels l with forwards := s.pc :: (s.labels l).forwards } s with pc := s.pc + 2 }

/-- `pushi` (bytecode-defs.jl:158) -/
def pushi : Nat := 0x9f

/-- Instructions with a two-byte argument: `byte-three-byte-insns`, bytecodes.jl:46-56. -/
def threeByte (op : Nat) : Bool := op = 0xa0 ∨ op = 0xa1 ∨ 0xf8 ≤ op

/-- `emit-insn`, assembler.jl:98-134; the limits 5, 255 and 65535 are
bytecode-defs.jl's `byte-max-1-byte-arg` and so on.  `ash` and `logand` are the quotient and the remainder. -/
def emitInsn (op : Nat) (arg : Option Int) (s : Asm C) : Except Err (Asm C) :=
  if 0x3f ≤ op then
    let s := emitByte op s
    match arg with
    | none => .ok s
    | some n =>
      if op = pushi then
        if n < 256 then .ok (emitByte n s) else .error .overflow
      else if threeByte op then
        if n < 65536 then .ok (emitByte (n % 256) (emitByte (n / 256) s)) else .error .overflow
      else .error .spurious
  else
    match arg with
    | none => .error .type
    | some n =>
      if n ≤ 5 then .ok (emitByte (op + n) s)
      else if n ≤ 0xff then .ok (emitByte n (emitByte (op + 6 : Nat) s))
      else if n ≤ 0xffff then .ok (emitByte (n % 256) (emitByte (n / 256) (emitByte (op + 7 : Nat) s)))
      else .error .overflow

/-- `(cdr (assoc value constants))` -/
def findConst (w : Consts C) (c : C) : List (C × Nat) → Option Nat
  | [] => none
  | (c', i) :: l => if w.equal c c' then some i else findConst w c l

/-- `get-const-id`, assembler.jl:71-75 -/
def constId (w : Consts C) (c : C) (s : Asm C) : Nat × Asm C :=
  match findConst w c s.constants with
  | some i => (i, s)
  | none => (s.next, { s with constants := (c, s.next) :: s.constants, next := s.next + 1 })

/-- An instruction with a constant, assembler.jl:168 and 197. -/
def emitConst (w : Consts C) (op : Nat) (c : C) (s : Asm C) : Except Err (Asm C) :=
  emitInsn op (some (constId w c s).1) (constId w c s).2

/-- `emit-push`, assembler.jl:140-168 -/
def emitPush (w : Consts C) (c : C) (s : Asm C) : Except Err (Asm C) :=
  match w.view c with
  | .fix n =>
    if n ≤ 65535 ∧ -65535 ≤ n then
      if n = 0 then emitInsn 0x9a none s
      else if n = 1 then emitInsn 0x9b none s
      else if n = 2 then emitInsn 0x9c none s
      else if n = -1 then emitInsn 0x9d none s
      else if n = -2 then emitInsn 0x9e none s
      else if n ≤ 127 ∧ -128 ≤ n then emitInsn pushi (some (n % 256)) s
      else if n < 0 then emitInsn 0xa0 (some (-n)) s
      else emitInsn 0xa1 (some n) s
    else emitConst w 0x10 c s
  | .nil => emitInsn 0x49 none s
  | .t => emitInsn 0x4a none s
  | .other => emitConst w 0x10 c s

/-- The loop of `emit-label`, assembler.jl:181-184. -/
def patch (addr : Nat) : List Nat → Asm C → Asm C
  | [], s => s
  | f :: l, s => patch addr l (emitAddressAt addr f s)

/-- `emit-label`, assembler.jl:175-184 -/
def emitLabel (l : Nat) (s : Asm C) : Except Err (Asm C) :=
  match (s.labels l).address with
  | some _ => .error .twice
  | none => .ok (setLabel l ⟨some s.pc, []⟩ (patch s.pc (s.labels l).forwards s))

/-- The body of the loop, assembler.jl:188-202; `emit-jmp` (136-138) and `emit-push-label` (170-173). -/
def step (w : Consts C) (s : Asm C) : Insn C → Except Err (Asm C)
  | .label l => emitLabel l s
  | .push c => emitPush w c s
  | .pushLabel l => .ok (emitLabelAddr l (emitByte 0xa1 s))
  | .global op c => emitConst w op c s
  | .jump op l => .ok (emitLabelAddr l (emitByte op s))
  | .op op arg => emitInsn op arg s

/-- The loop, assembler.jl:186-203 -/
def run (w : Consts C) : List (Insn C) → Asm C → Except Err (Asm C)
  | [], s => .ok s
  | i :: l, s =>
    match step w s i with
    | .ok s' => run w l s'
    | .error e => .error e

/-- assembler.jl:205-209: what is at an address of the string after the stores of `aset` (the newest first), which keep the
low eight bits (lispcmds.c:878), into a string of spaces (lispcmds.c:939). -/
def stored : List (Int × Nat) → Nat → Nat
  | [], _ => 32
  | (b, a) :: l, x =>
    match l.find? (fun p => p.2 = x) with
    | some _ => stored l x
    | none => if a = x then (b % 256).toNat else 32

/-- The vector of constants, assembler.jl:210-212 (`none` for an element that is not set). -/
def constAt (l : List (C × Nat)) (i : Nat) : Option C := (l.find? (fun p => p.2 = i)).map (·.1)

/-- The object code: a string and a vector. -/
structure Code (C : Type) where
  length : Nat
  byte : Nat → Nat
  consts : Nat → Option C

/-- `assemble`, assembler.jl:58-214 -/
def assemble (w : Consts C) (insns : List (Insn C)) (start : Nat) : Except Err (Code C) :=
  match run w insns { pc := start } with
  | .error e => .error e
  | .ok s => .ok ⟨s.pc, stored s.code, constAt s.constants⟩

end Rep.Asm
