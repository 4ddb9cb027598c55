/-
Specification vocabulary for lists in a cons heap.
-/
import Verif.Heap.Model

namespace Rep.Lists

/-- Following cdrs from `v` goes through exactly the allocated cells `as`, in that
order, and arrives at `w`. -/
def Spine (h : Heap) : V → List Nat → V → Prop
  | v, [], w => v = w
  | v, a :: as, w => v = .cell a ∧ a < h.next ∧ Spine h (h.cdr a) as w

/-- `v` is not a cons cell. -/
def IsAtom (v : V) : Prop := ∀ a, v ≠ .cell a

/-- The list that starts with the first of the cells `as`, or `t` if there is none. -/
def startOf (t : V) : List Nat → V
  | [] => t
  | a :: _ => .cell a

/-- No cell that exists in `h` has changed in `h'` (there may be new ones). -/
def Extends (h h' : Heap) : Prop :=
  h.next ≤ h'.next ∧ ∀ a, a < h.next → h'.car a = h.car a ∧ h'.cdr a = h.cdr a

/-- Nothing but the cdr slots of the cells `as` differs between `h` and `h'`. -/
def OnlyCdrsOf (as : List Nat) (h h' : Heap) : Prop :=
  h'.next = h.next ∧ h'.car = h.car ∧ ∀ a, a ∉ as → h'.cdr a = h.cdr a

/-- The Lisp function `f` returns `g v` for argument `v` and does not modify existing
cells. -/
def Quiet (f : Fn) (g : V → V) : Prop := ∀ h v, Extends h (f h v).1 ∧ (f h v).2 = g v

/-- `q` is a queue holding the items `xs`, front first. -/
def IsQueue (h : Heap) (q : Nat) (xs : List V) : Prop :=
  ∃ as : List Nat, Spine h (h.cdr q) as .nil ∧ as.map h.car = xs ∧ (q :: as).Nodup ∧
    q < h.next ∧
    h.car q = (match as.getLast? with | some a => .cell a | none => .nil)

end Rep.Lists
