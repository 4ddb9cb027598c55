import Mathlib.Data.List.Basic
/-!
# The idle hook

Models `rep_on_idle` (src/main.c:339-378) and the part of `handle_input` that calls it (src/unix_main.c:485-521).

Simplifications: the functions of the hook don't run an event loop themselves, so that `depth` is 1.
-/
namespace Rep.Idle

/-- A timeout of the wait for input: whether an interrupt is pending, `rep_on_idle_fun` has done something, there is enough garbage for a collection, and the hook
has functions. -/
structure Tick where
  interrupt : Bool := false
  saved : Bool := false
  garbage : Bool := false
  hook : Bool := true
  deriving DecidableEq

inductive Ev
  | input
  | tick (w : Tick)

/-- The static variables `idle_period` and `called_hook`. -/
structure St where
  period : Nat := 0
  called : Bool := false

/-- What was done. -/
inductive Did
  | saved | collected | hook
  deriving DecidableEq

/-- main.c:339-378 `rep_on_idle`: the new value of `called_hook`, what was done, and whether the display is to be refreshed. -/
def onIdle (since : Nat) (called : Bool) (w : Tick) : Bool × Option Did × Bool :=
  let called := if since = 0 then false else called
  if w.saved then (called, some .saved, true)
  else if w.garbage then (called, some .collected, false)
  else if !called then (true, if w.hook then some .hook else none, w.hook)
  else (called, none, false)

/-- unix_main.c:485-521 -/
def step (s : St) : Ev → St × Option Did
  | .input => ({ s with period := 0 }, none)
  | .tick w =>
    if w.interrupt then ({ s with period := s.period + 1 }, none)
    else
      let r := onIdle s.period s.called w
      ({ period := s.period + 1, called := r.1 }, r.2.1)

def run (s : St) : List Ev → St
  | [] => s
  | e :: es => run (step s e).1 es

/-- What is done at the last of these events. -/
def last (es : List Ev) (e : Ev) : Option Did := (step (run {} es) e).2

end Rep.Idle
