import Verif.Heap.Spec
import Verif.ListLib.Model

/-
Specification vocabulary for the list functions of the Lisp library.
-/

namespace Rep.Lists

/-- Following cdrs `n` times. -/
def tailAt (h : Heap) (v : V) : Nat → V
  | 0 => v
  | n + 1 => cdr h (tailAt h v n)

/-- The list has an element number `n`, and it passes the test. -/
def Found (h : Heap) (same : V → Bool) (v : V) (n : Nat) : Prop :=
  ∃ a, tailAt h v n = .cell a ∧ same (h.car a) = true

/-- No pointer leads out of the heap. -/
def Closed (h : Heap) : Prop := ∀ a b, a < h.next → h.cdr a = .cell b → b < h.next

/-- `r` is a list of the elements `xs` in cells that did not exist in `h`. -/
def NewList (h h' : Heap) (r : V) (xs : List V) : Prop :=
  ∃ ds : List Nat, Spine h' r ds .nil ∧ ds.Nodup ∧ (∀ c ∈ ds, h.next ≤ c) ∧ ds.map h'.car = xs

/-- The strings with the separator between each two. -/
def joined (sep : List Nat) : List (List Nat) → List Nat
  | [] => []
  | [s] => s
  | s :: t :: l => s ++ sep ++ joined sep (t :: l)

/-- What `option-index` compares: the option, or the first element of a list that starts with it. -/
def optionKey (h : Heap) (e : V) : V := if car h e ≠ .nil then car h e else e

end Rep.Lists
