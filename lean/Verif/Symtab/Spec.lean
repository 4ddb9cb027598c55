/-
Obarrays as sets of symbols.
-/
import Verif.Symtab.Model

namespace Rep.Symtab.Spec

open Rep.Symtab

/-- The symbols with their names, and which of them are in each obarray. -/
structure Abs where
  count : Nat := 0
  name : Nat → List UInt8 := fun _ => []
  keyword : Nat → Bool := fun _ => false
  content : Nat → List Nat := fun _ => []
  counter : Nat := 0

/-- The symbol of an obarray with a name. -/
def Abs.lookup (a : Abs) (name : List UInt8) (ob : Nat) : Option Nat := (a.content ob).find? fun s => cstr (a.name s) = cstr name

/-- A new symbol. -/
def Abs.make (a : Abs) (name : List UInt8) : Abs :=
  { a with count := a.count + 1, name := fun i => if i = a.count then name else a.name i, keyword := fun i => if i = a.count then false else a.keyword i }

/-- A symbol is put into an obarray. -/
def Abs.add (a : Abs) (s ob : Nat) : Abs := { a with content := fun o => if o = ob then s :: a.content o else a.content o }

/-- … is taken out of it. -/
def Abs.remove (a : Abs) (s ob : Nat) : Abs := { a with content := fun o => if o = ob then (a.content o).filter (· ≠ s) else a.content o }

/-- The symbol with a name: the one there is, or a new one. -/
def Abs.intern (a : Abs) (name : List UInt8) (ob : Nat) : Abs × Nat :=
  match a.lookup name ob with
  | some s => (a, s)
  | none => ((a.make name).add a.count ob, a.count)

/-- What the manual says of each function. -/
inductive Does : Abs → Op → Abs → Res → Prop where
  | makeSymbol (a name) : Does a (.makeSymbol name) (a.make name) (.sym a.count)
  | gensym (a) : Does a .gensym ({ a with counter := a.counter + 1 }.make (gensymName (a.counter + 1))) (.sym a.count)
  | found (a name ob s) : a.lookup name ob = some s → Does a (.find name ob) a (.sym s)
  | notFound (a name ob) : a.lookup name ob = none → Does a (.find name ob) a .nil
  | intern (a name ob) : Does a (.intern name ob) (a.intern name ob).1 (.sym (a.intern name ob).2)
  | already (a s ob ob') : s ∈ a.content ob' → Does a (.internSymbol s ob) a .error
  | internSymbol (a s ob) : (∀ ob', s ∉ a.content ob') → Does a (.internSymbol s ob) (a.add s ob) (.sym s)
  | unintern (a s ob) : Does a (.unintern s ob) (a.remove s ob) (.sym s)
  | keyword (a s) : a.keyword s = false → Does a (.makeKeyword s)
      (let r := a.intern (35 :: 58 :: a.name s) 1; { r.1 with keyword := fun i => if i = r.2 then true else r.1.keyword i }) (.sym (a.intern (35 :: 58 :: a.name s) 1).2)
  | notKeyword (a s) : a.keyword s = true → Does a (.makeKeyword s) a .error
  | keywordp (a s) : Does a (.keywordp s) a (.bool (a.keyword s))

/-- What is asked of an operation: a symbol is a symbol; it is not uninterned from an obarray while it is in another one; and a symbol is not
interned in an obarray which has another symbol with that name. -/
def Ok (a : Abs) : Op → Prop
  | .internSymbol s ob => s < a.count ∧ ∀ x ∈ a.content ob, cstr (a.name x) = cstr (a.name s) → x = s
  | .unintern s ob => s < a.count ∧ ∀ ob', s ∈ a.content ob' → ob' = ob
  | .makeKeyword s => s < a.count
  | .keywordp s => s < a.count
  | _ => True

/-- A history of permitted operations. -/
inductive Allowed : Abs → List Op → Prop where
  | nil (a) : Allowed a []
  | cons {a op ops} : Ok a op → (∀ b r, Does a op b r → Allowed b ops) → Allowed a (op :: ops)

/-- A history, with what the operations return. -/
inductive Runs : Abs → List Op → Abs → List Res → Prop where
  | nil (a) : Runs a [] a []
  | cons {a b c op ops r rs} : Does a op b r → Runs b ops c rs → Runs a (op :: ops) c (r :: rs)

end Rep.Symtab.Spec
