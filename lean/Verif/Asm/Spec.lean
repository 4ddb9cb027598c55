import Verif.Asm.Model

/-
How the virtual machine reads byte code: src/lispmach.h.
-/

namespace Rep.Asm.Spec

variable {C : Type}

/-- An instruction that was fetched: its number and its argument. -/
structure Raw where
  op : Nat
  arg : Option Nat
  deriving DecidableEq

/-- `FETCH` and `FETCH2`, lispmach.h:217-218, `BEGIN_INSN_WITH_ARG`, lispmach.h:261-268, and the
instructions that fetch an argument (lispmach.h:1763-1781, and the jumps from 0xf8 on): the
instruction at `pc` and the address of the next one. -/
def fetch (byte : Nat → Nat) (pc : Nat) : Raw × Nat :=
  let b := byte pc
  if b < 0x40 then
    if b % 8 = 7 then (⟨b - 7, some (byte (pc + 1) * 256 + byte (pc + 2))⟩, pc + 3)
    else if b % 8 = 6 then (⟨b - 6, some (byte (pc + 1))⟩, pc + 2)
    else (⟨b - b % 8, some (b % 8)⟩, pc + 1)
  else if b = 0x9f then (⟨b, some (byte (pc + 1))⟩, pc + 2)
  else if b = 0xa0 ∨ b = 0xa1 ∨ 0xf8 ≤ b then (⟨b, some (byte (pc + 1) * 256 + byte (pc + 2))⟩, pc + 3)
  else (⟨b, none⟩, pc + 1)

/-- What an instruction pushes, if that is all it does: an integer, `()`, `t` or a constant
(lispmach.h:855-858, 1168-1176 and 1738-1781). -/
inductive Pushed (C : Type)
  | int (n : Int)
  | nil
  | t
  | const (c : C)

def pushed (consts : Nat → Option C) : Raw → Option (Pushed C)
  | ⟨0x9a, none⟩ => some (.int 0)
  | ⟨0x9b, none⟩ => some (.int 1)
  | ⟨0x9c, none⟩ => some (.int 2)
  | ⟨0x9d, none⟩ => some (.int (-1))
  | ⟨0x9e, none⟩ => some (.int (-2))
  | ⟨0x9f, some n⟩ => some (.int (if n < 128 then n else n - 256))
  | ⟨0xa0, some n⟩ => some (.int (-n))
  | ⟨0xa1, some n⟩ => some (.int n)
  | ⟨0x49, none⟩ => some .nil
  | ⟨0x4a, none⟩ => some .t
  | ⟨0x10, some n⟩ => (consts n).map .const
  | _ => none

/-- The value that is pushed is the constant, or one that is `equal`. -/
def IsConst (w : Consts C) (c : C) : Pushed C → Prop
  | .int n => w.view c = .fix n
  | .nil => w.view c = .nil
  | .t => w.view c = .t
  | .const c' => w.equal c c' = true ∨ c' = c

/-- The fetched instruction is the one in the input, where the labels have the addresses `at`. -/
def Does (w : Consts C) (consts : Nat → Option C) (at' : Nat → Nat) : Insn C → Raw → Prop
  | .label _, _ => False
  | .push c, r => ∃ p, pushed consts r = some p ∧ IsConst w c p
  | .pushLabel l, r => pushed consts r = some (.int (at' l))
  | .global op c, r => r.op = op ∧ ∃ i c', r.arg = some i ∧ consts i = some c' ∧ (w.equal c c' = true ∨ c' = c)
  | .jump op l, r => r = ⟨op, some (at' l)⟩
  | .op op arg, r => r.op = op ∧ r.arg.map Int.ofNat = arg

/-- Instructions with the argument they need. -/
def Valid : Insn C → Prop
  | .global op _ => op = 0x18 ∨ op = 0x20
  | .jump op _ => 0xf8 ≤ op ∧ op < 256
  | .op op arg =>
    if op < 0x40 then op % 8 = 0 ∧ ∃ n : Nat, arg = some (n : Int)
    else if op = 0x9f ∨ op = 0xa0 ∨ op = 0xa1 then ∃ n : Nat, arg = some (n : Int)
    else op < 0xf8 ∧ arg = none
  | _ => True

/-- The argument can be represented. -/
def Fits : Insn C → Prop
  | .op op (some n) => if op = 0x9f then n < 256 else n < 65536
  | _ => True

/-- The instruction may need an element of the vector of constants. -/
def usesConst : Insn C → Bool
  | .push _ => true
  | .global _ _ => true
  | _ => false

/-- The labels an instruction refers to. -/
def refers : Insn C → Option Nat
  | .pushLabel l => some l
  | .jump _ l => some l
  | _ => none

end Rep.Asm.Spec
