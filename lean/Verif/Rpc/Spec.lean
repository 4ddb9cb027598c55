/-
What may be sent, what is asked of the wiring, and when nothing is left to do.
-/
import Verif.Rpc.Model
import Verif.Reader.Prefix

namespace Rep.Rpc.Spec

open Rep.Reader Rep.Rpc

/-- Data that can be printed and read back, and of which no beginning can be taken for something else (it contains nothing that is written
with a `#`). -/
def Sendable (e : Escape) (o : Obj) : Prop := Readable e o ∧ Plain o

/-- Programs and servants send only such data. -/
def Ok : Event → Prop
  | .call _ e servant args => Readable e (.sym servant) ∧ Sendable e args
  | .oneway _ e servant args => Readable e (.sym servant) ∧ Sendable e args
  | .finish _ e _ v => Sendable e v
  | _ => True

/-- Every socket has another one at the other end. -/
structure Wired (w : Wiring) : Prop where
  sym : ∀ s, w.peer (w.peer s) = s
  other : ∀ s, w.peer s ≠ s

/-- The states that can be reached while only such data is sent. -/
def Reachable (w : Wiring) (net : Net) : Prop := ∃ evs : List Event, (∀ ev ∈ evs, Ok ev) ∧ (Net.start w).run w evs = some net

/-- Nothing is left to do on the connection of a socket: all text has arrived, the loops of both output handlers have come to their end,
and no servant is running for it. -/
structure Quiet (w : Wiring) (net : Net) (s : Nat) : Prop where
  here : net.wire s = []
  there : net.wire (w.peer s) = []
  roundHere : readForm (net.host (w.owner s)) s = .out
  roundThere : readForm (net.host (w.owner (w.peer s))) (w.peer s) = .out
  running : ∀ x ∈ net.running, x.sock ≠ w.peer s

end Rep.Rpc.Spec
