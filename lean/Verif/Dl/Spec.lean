import Verif.Dl.Model

/-
Specification vocabulary for the loading of libraries.
-/

namespace Rep.Dl

/-- The files of the libraries that are loaded, by handle. -/
def State.files (s : State) : List Nat := s.libs.map Lib.file

/-- A sequence of loads, with the handles that they give (none for an error). -/
def loadAll (W : World) (n : Nat) : List Nat → State → Option (Res (List (Option Nat)))
  | [], s => some (.ok s [])
  | f :: fs, s => match load W n f s with
    | none => none
    | some .ub => some .ub
    | some (.ok s1 r) => match loadAll W n fs s1 with
      | none => none
      | some .ub => some .ub
      | some (.ok s2 rs) => some (.ok s2 (r :: rs))

/-- The program loads only files of a lower rank than `k`. -/
def Below (rank : Nat → Nat) (k : Nat) : Prog → Prop
  | .done _ => True
  | .load f c => rank f < k ∧ ∀ b, Below rank k (c b)

/-- No library leads back to itself. -/
def Acyclic (W : World) (rank : Nat → Nat) : Prop :=
  ∀ f d, W f = some d → Below rank (rank f) d.requires ∧ ∀ p, d.init = some p → Below rank (rank f) p

/-- The program succeeds whatever happens. -/
def NeverFails : Prog → Prop
  | .done r => r ≠ .fail
  | .load _ c => ∀ b, NeverFails (c b)

/-- An initialisation that fails has loaded nothing. -/
def CleanFailures (W : World) : Prop :=
  ∀ f d p, W f = some d → d.init = some p → (∃ r, p = .done r) ∨ NeverFails p

/-- Whether the library has a function that initialises it. -/
def HasInit (W : World) (f : Nat) : Prop := ∃ d p, W f = some d ∧ d.init = some p

/-- Whether the library has a function for the end. -/
def HasKill (W : World) (f : Nat) : Prop := ∃ d, W f = some d ∧ d.kill = true

end Rep.Dl
