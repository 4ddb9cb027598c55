import Verif.Proc.Model

/-
What the functions of processes and their output streams are to see, told from the observations alone.
The newest observation is the first of the list.
-/

namespace Rep.Proc.Spec

open Rep.Proc

/-- After every change of state of `p` its function has been called. -/
def Answered (log : List Obs) (p : Id) : Prop :=
  ∀ after st before, log = after ++ .change p st :: before → ∃ st', .call p st' ∈ after

/-- The state of `p` at this point. -/
def now : List Obs → Id → Status
  | [], _ => .dead
  | .change q st :: l, p => if q = p then st else now l p
  | .start q :: l, p => if q = p then .running else now l p
  | _ :: l, p => now l p

/-- What the present child of `p` has written. -/
def sent : List Obs → Id → Bool → List Nat
  | [], _, _ => []
  | .start q :: l, p, e => if q = p then [] else sent l p e
  | .wrote q e' b :: l, p, e => if q = p ∧ e' = e then sent l p e ++ b else sent l p e
  | _ :: l, p, e => sent l p e

/-- What the stream of `p` has received from it. -/
def received : List Obs → Id → Bool → List Nat
  | [], _, _ => []
  | .start q :: l, p, e => if q = p then [] else received l p e
  | .data q e' b :: l, p, e => if q = p ∧ e' = e then received l p e ++ b else received l p e
  | _ :: l, p, e => received l p e

/-- The present child of `p` has ended with this status. -/
def ended : List Obs → Id → Option Nat
  | [], _ => none
  | .start q :: l, p => if q = p then none else ended l p
  | .ended q st :: l, p => if q = p then some st else ended l p
  | _ :: l, p => ended l p

/-- How often the state of `p` has changed. -/
def changes (log : List Obs) (p : Id) : Nat :=
  log.countP fun | .change q _ => decide (q = p) | _ => false

/-- How often its function has been called. -/
def calls (log : List Obs) (p : Id) : Nat :=
  log.countP fun | .call q _ => decide (q = p) | _ => false

end Rep.Proc.Spec

namespace Rep.Proc

/-- What the theorems ask of a history: the collector does not run while two objects, or an object that
is not referenced, wait for the call of their function; and `check_for_zombies` does not meet a child of
`call-process`. -/
def Allowed (s : St) : Op → Prop
  | .gc marked => s.chain = none ∨ ∃ p, s.chain = some p ∧ marked p = true ∧ (s.obj p).next = none
  | .reap p => (s.obj p).sync = false
  | _ => True

inductive AllowedRun : St → List Op → St → Prop
  | nil (s) : AllowedRun s [] s
  | cons {s op s' ops s''} : Allowed s op → step s op = .ok s' → AllowedRun s' ops s'' →
      AllowedRun s (op :: ops) s''

/-- What the event loop does by itself, `proc_periodically` (unix_processes.c:318-325). -/
def Op.internal : Op → Bool
  | .zombies | .reap _ | .reaped | .dispatch => true
  | _ => false

/-- Nothing is left to be done by the event loop. -/
def Quiet (s : St) : Prop := ∀ op, op.internal = true → ∀ s', step s op ≠ .ok s'

end Rep.Proc
