import Verif.TailCall.Model

/-
What is claimed about tail calls: functions have a stack of their own and the arguments they were
called with.
-/

namespace Rep.TailCall

variable {V : Type}

/-- What a function sees: its stack, the last value first, and the arguments that it has not taken;
`room` is the size of the stack that it has declared. -/
structure View (V : Type) where
  stk : List V
  args : List V
  room : Nat

/-- What an event means for it; `none`: a function does more than it has declared, or takes what is
not there. -/
def View.step (k : Lisp V) (w : View V) : Ev V → Option (View V)
  | .push x => if w.stk.length < w.room then some { w with stk := x :: w.stk } else none
  | .pop => match w.stk with
    | [] => none
    | _ :: l => some { w with stk := l }
  | .arg => if w.stk.length < w.room then
      some { w with stk := w.args.headD k.nil :: w.stk, args := w.args.tail } else none
  | .rest => if w.stk.length < w.room then
      some { w with stk := k.list w.args :: w.stk, args := [] } else none
  | .call n r => if n < w.stk.length then some ⟨[], (w.stk.take n).reverse, r.v⟩ else none
  | .apply args r => some ⟨[], args, r.v⟩

def View.steps (k : Lisp V) (w : View V) : List (Ev V) → Option (View V)
  | [] => some w
  | e :: es => match w.step k e with
    | some w => w.steps k es
    | none => none

/-- The sizes of the functions that are called. -/
def reqs : List (Ev V) → List Req
  | [] => []
  | .call _ r :: es => r :: reqs es
  | .apply _ r :: es => r :: reqs es
  | _ :: es => reqs es

/-- The numbers of the arguments of calls through `apply`. -/
def applied : List (Ev V) → List Nat
  | [] => []
  | .apply l _ :: es => l.length :: applied es
  | _ :: es => applied es

/-- What the machine shows. -/
structure Shows (s : Vm V) (w : View V) : Prop where
  sp : s.sp = w.stk.length
  stk : ∀ i, i < s.sp → peek s.mem s.stack (s.sp - i) = w.stk[i]?
  argc : s.argc - s.argptr = w.args.length
  args : ∀ i, i < w.args.length → peek s.mem s.argv (s.off + s.argptr + i) = w.args[i]?

end Rep.TailCall
