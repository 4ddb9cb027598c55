import Mathlib.Data.List.Basic
/-!
# Stepping through a program with the debugger

Models the part of `rep_eval` that calls the debugger (src/lisp.c:1945-2028), `break` (:2471-2480), `step` (:2482-2495) and the commands of the debugger that go on
with the program (lisp/rep/lang/debugger.jl: `do-step`, `do-next`, `do-continue`, `do-set-result`).

Simplifications: a form is a constant, a call of `break`, or has two parts that are evaluated one after the other; values are numbers, and the value of a form with two
parts is their sum. Each form has a label. Macros, errors, other commands of the debugger and the call of the exit hook, which only prints, are not modelled.
-/
namespace Rep.Stepper

/-- Forms: what `rep_eval` is called with (lisp.c:1816-1942). -/
inductive Form
  | const (label value : Nat)
  | brk (label : Nat)
  | pair (label : Nat) (a b : Form)

/-- The label of a form. -/
def Form.label : Form → Nat
  | .const n _ => n
  | .brk n => n
  | .pair n _ _ => n

/-- debugger.jl:215-225: the commands that go on with the program. -/
inductive Cmd
  | step | next | cont | ret (v : Nat)
  deriving DecidableEq

/-- `rep_single_step_flag`; the forms at which the debugger stopped; the forms that have been evaluated, in order of completion. -/
structure St where
  flag : Bool := false
  stops : List Nat := []
  done : List Nat := []
  deriving DecidableEq

/-- lisp.c:1945-2028 `rep_eval`. The user answers the k-th stop with `script k`. -/
def debug (script : Nat → Cmd) (ev : St → Nat × St) (n : Nat) (s : St) : Nat × St :=
  if !s.flag then ev s
  else
    let s1 : St := { s with flag := false, stops := s.stops ++ [n] }
    match script s.stops.length with
    | .step =>
      let r := ev { s1 with flag := true }
      (r.1, { r.2 with flag := true })
    | .next =>
      let r := ev s1
      (r.1, { r.2 with flag := true })
    | .cont =>
      let r := ev s1
      (r.1, { r.2 with flag := false })
    | .ret v => (v, { s1 with flag := true })

/-- lisp.c:1816-1942 `eval`: the parts are evaluated by `rep_eval`. -/
def eval (script : Nat → Cmd) : Form → St → Nat × St
  | .const n v => fun s => (v, { s with done := s.done ++ [n] })
  | .brk n => fun s => (1, { s with flag := true, done := s.done ++ [n] })
  | .pair n a b => fun s =>
    let r1 := debug script (eval script a) a.label s
    let r2 := debug script (eval script b) b.label r1.2
    (r1.1 + r2.1, { r2.2 with done := r2.2.done ++ [n] })

/-- `rep_eval` of a form. -/
def run (script : Nat → Cmd) (f : Form) (s : St) : Nat × St := debug script (eval script f) f.label s

/-- lisp.c:2482-2495 `step`. -/
def stepForm (script : Nat → Cmd) (f : Form) (s : St) : Nat × St :=
  let r := run script f { s with flag := true }
  (r.1, { r.2 with flag := s.flag })

end Rep.Stepper
