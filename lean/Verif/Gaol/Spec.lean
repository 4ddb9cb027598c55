import Verif.Gaol.Model
import Mathlib.Data.List.Forall2

/-
What the protection of special variables means.
-/

namespace Rep.Gaol

/-- Unrestricted code has declared the variable with `defvar`. -/
def Owned (s : St) (v : Sym) : Prop :=
  (s.flags v).special = true ∧ (s.flags v).defvar = true ∧ (s.flags v).weak = false

/-- The variable is in the list of the structure (or the structure is not restricted). -/
def Listed (s : St) (t : Sid) (v : Sym) : Prop :=
  match (s.struc t).env with
  | .all => True
  | .only l => v ∈ l

def Unrestricted (s : St) (t : Sid) : Prop := (s.struc t).env = .all

/-- Code running in the structure may use the variable: the structure is not restricted, or has the
variable in its list, without having put it there itself before unrestricted code declared it. -/
def MayUse (s : St) (t : Sid) (v : Sym) : Prop :=
  Unrestricted s t ∨ (Listed s t v ∧ (s.flags v).weakMod = false)

/-- The operation assigns to the variable. -/
def Op.assigns (v : Sym) : Op → Prop
  | .set u _ | .setDefault u _ | .makunbound u | .defvar u _ _ | .addHook u _ _ => u = v
  | _ => False

/-- The operation declares the symbol special. -/
def Op.declares (v : Sym) : Op → Prop
  | .defvar u _ _ | .compiledDefvar u _ | .makeSpecial u | .addHook u _ _ => u = v
  | _ => False

/-- Every operation of the program, running in which structure, is such that `P`. -/
def Cmd.Ops (P : Sid → Op → Prop) : Cmd → Sid → Prop
  | .op o, t => P t o
  | .seq a b, t => a.Ops P t ∧ b.Ops P t
  | .letIn _ _ b, t => b.Ops P t
  | .guarded b, t => b.Ops P t
  | .call t b, _ => b.Ops P t

/-- Every `let` of the program, running in which structure, is such that `P`. -/
def Cmd.Lets (P : Sid → Sym → Prop) : Cmd → Sid → Prop
  | .op _, _ => True
  | .seq a b, t => a.Lets P t ∧ b.Lets P t
  | .letIn v _ b, t => P t v ∧ b.Lets P t
  | .guarded b, t => b.Lets P t
  | .call t b, _ => b.Lets P t

/-- Whenever a structure such that `P` has read the variable, it saw this value. -/
def SeesOnly (P : Sid → Prop) (v : Sym) (x : Val) (es : List Ev) : Prop :=
  ∀ e ∈ es, P e.who → (e.op = .symbolValue v ∨ e.op = .defaultValue v) → e.res = .val (some x)

/-- The states differ only in the values (global or dynamically bound) of the variable `v`. -/
structure SameBut (v : Sym) (s₁ s₂ : St) : Prop where
  flags : s₁.flags = s₂.flags
  lex : s₁.lex = s₂.lex
  plist : s₁.plist = s₂.plist
  struc : s₁.struc = s₂.struc
  user : s₁.user = s₂.user
  globals : ∀ u, u ≠ v → s₁.globals u = s₂.globals u
  bound : (s₁.globals v).isSome = (s₂.globals v).isSome
  binds : List.Forall₂ (fun a b => a.1 = b.1 ∧ (a.1 ≠ v → a.2 = b.2) ∧ a.2.isSome = b.2.isSome) s₁.binds s₂.binds

end Rep.Gaol
