import Verif.Sock.Model

/-
Specification vocabulary for sockets: what the log says about one socket.
-/

namespace Rep.Sock

/-- The bytes that the stream of the socket has got. -/
def dataOf (sid : Nat) : List Event → Bytes
  | [] => []
  | .data s b :: log => if s = sid then b ++ dataOf sid log else dataOf sid log
  | _ :: log => dataOf sid log

/-- A function of the program was called for the socket. -/
def Event.Calls (sid : Nat) : Event → Prop
  | .data s _ => s = sid
  | .ended s _ => s = sid
  | .asked s => s = sid
  | _ => False

/-- The connection has ended: its sentinel was called, or `close-socket`. -/
def Event.Ends (sid : Nat) : Event → Prop
  | .ended s _ => s = sid
  | .closed s => s = sid
  | _ => False

/-- An operation that a stream may carry out while it gets bytes of the socket `sid`: it does not
close it, does not write in vain and does not wait for input. -/
def Benign (sid : Nat) : Op → Prop
  | .close s => s ≠ sid
  | .writeFails _ => False
  | .dispatch _ => False
  | _ => True

/-- Streams of that kind. -/
def Lisp.Benign (L : Lisp) : Prop := ∀ st sid b, ∀ o ∈ L.stream st sid b, Sock.Benign sid o

end Rep.Sock
