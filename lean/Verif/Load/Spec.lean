/-
Loading libraries: libraries of modules, and what is expected of the order of
events.
-/
import Verif.Load.Model

namespace Rep.Load

mutual
/-- The command refers only to modules whose names are in `N`, and neither loads
files by name, nor registers functions, nor makes a structure that has a name in
`N`. -/
def Cmd.tidy (N : List String) : Cmd → Bool
  | .emit _ | .fail | .provide _ => true
  | .require f => N.contains f
  | .load _ _ | .after _ _ => false
  | .open ms => ms.all N.contains
  | .define name opens body =>
    (match name with | some x => !N.contains x | none => true) &&
      opens.all N.contains && tidyL N body
  | .try body => tidyL N body
def tidyL (N : List String) : List Cmd → Bool
  | [] => true
  | c :: cs => c.tidy N && tidyL N cs
end

/-- The file of a module consists of the definition of that module. -/
structure ModuleFile (N : List String) (x : String) (opens : List String) (f : File) : Prop where
  forms : ∃ body, f.forms = [.define (some x) opens body] ∧ tidyL N body = true
  opens : ∀ m ∈ opens, m ∈ N

/-- A library of modules: if there is a file for a name in `N`, it is the file of
the module with that name. -/
def ModuleLib (N : List String) (lib : String → Option File) : Prop :=
  ∀ x ∈ N, ∀ f, lib (structureFile x) = some f → ∃ opens, ModuleFile N x opens f

/-- The module is being made: it was started, and neither completed nor given up
since. -/
def InProgress (log : List Event) (x : String) : Prop :=
  ∃ a b, log = a ++ .start x :: b ∧ .start x ∉ b ∧ .done x ∉ b ∧ .failed x ∉ b

end Rep.Load
