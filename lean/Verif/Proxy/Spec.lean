import Verif.Proxy.Model

/-
Specification: one function, called by one thread after the other.
-/

namespace Rep.Proxy

/-- The ends of a sequence of calls of the function, one after the other. -/
def outs (F : Fn) : Nat → List Nat → List Out
  | _, [] => []
  | st, a :: as => (F st a).2 :: outs F (F st a).1 as

/-- The arguments of all calls, in the order in which they were made. -/
def args (l : List Seen) : List Nat :=
  l.filterMap fun
    | .sent _ a _ => some a
    | _ => none

/-- Who made the calls, and whether they wait for the result. -/
def callers (l : List Seen) : List (Nat × Bool) :=
  l.filterMap fun
    | .sent t _ b => some (t, b)
    | _ => none

/-- No waiting time is over. -/
def Untimed (as : List Act) : Prop := ∀ a ∈ as, a ≠ .fetchTimeout ∧ ∀ t, a ≠ .getTimeout t

/-- What threads do without new calls. -/
def Act.internal : Act → Bool
  | .fetch => true
  | .finish => true
  | .get _ => true
  | _ => false

end Rep.Proxy
