import Verif.Stack.Model

/-
What is claimed about the stacks of compiled code.
-/

namespace Rep.Stack

open Rep.Compile

/-- The states of the machine that can be reached by instructions. -/
inductive Reach (P : Prims) (T : List (List I)) (m0 : MSt) : MSt → Prop
  | start : Reach P T m0 m0
  | step {m m' : MSt} : Reach P T m0 m → step P T m = .next m' → Reach P T m0 m'

/-- The state in which a compiled file is started. -/
def Sized.start (z : Sized) (lib : Name → Option Nat) : MSt :=
  ⟨enter z.prog.main [] [], [], ⟨[], z.prog.globals lib⟩⟩

/-- An activation is within what has been allocated for it: `stack[1 .. v]`, `bindstack[0 .. b]`
and `slots[0 .. s - 1]`. -/
def Within (a : Act) (y : Sizes) : Prop :=
  a.stk.length ≤ y.v ∧ a.bst.length ≤ y.b + 1 ∧ ∀ n, a.slots n ≠ none → n < y.s

/-- How many values an instruction takes from the stack, at least, and how many frames there have to
be. -/
def operands : I → Nat × Nat
  | .pop | .dup | .setg _ | .setn _ | .slotSet _ | .jn _ | .jpt _ | .jnp _ | .jtp _ | .ret => (1, 0)
  | .bind => (1, 1)
  | .unbind | .unbindall => (0, 1)
  | .call n => (n + 1, 0)
  | _ => (0, 0)

/-- The sizes fit the fields of ten bits. -/
def Sized.small (z : Sized) : Prop := ∀ y ∈ z.main :: z.table, y.v < 1024 ∧ y.b < 1024

end Rep.Stack
