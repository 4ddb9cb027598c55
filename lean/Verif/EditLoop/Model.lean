import Mathlib.Data.List.Basic
/-!
# Event loops and what is thrown out of them

Models `rep_handle_input_exception` (src/main.c:383-446), `recursive-edit` (:483-498), `rep_top_level_recursive_edit` (:500-521), `recursion-depth` (:523-533),
`rep_top_level_exit` (:450-481) and the reaction of `rep_event_loop` (src/unix_main.c:551-558).

Simplifications: input is C77. What the functions called for input do is to enter a `recursive-edit`, perhaps inside a `catch` for some tag, to set the modes,
or to throw; tags with a meaning of their own are caught by event loops only. The program is driven by input: it calls `rep_top_level_recursive_edit`.
-/
namespace Rep.EditLoop

/-- The tags that event loops know, and others by number. -/
inductive Throw
  | exit
  | topLevel
  | quit (status : Int)
  | userInterrupt
  | error
  | termInterrupt
  | other (k : Nat)
  deriving DecidableEq

/-- Values of `error-mode` and `interrupt-mode` (main.c:43-50). -/
inductive Mode
  | current | topLevel | exit
  deriving DecidableEq

structure Modes where
  error : Mode := .current
  interrupt : Mode := .current
  deriving DecidableEq

/-- What is noticed: `rep_handle_error` for an error, an interrupt, a tag without catch; `rep_on_termination_fun`. -/
inductive Report
  | error | interrupt | noCatcher | cleanup
  deriving DecidableEq

/-- What an event loop does: it goes on, returns from `recursive-edit`, or leaves it by the throw. -/
inductive Reaction
  | stay (rs : List Report)
  | ret (rs : List Report)
  | pass

/-- main.c:429-433, the label `terminate`. -/
def terminate (depth : Int) : List Report := if depth = 0 then [.cleanup] else []

/-- main.c:383-446 `rep_handle_input_exception`; `depth` is `rep_recurse_depth`. -/
def handle (m : Modes) (depth : Int) : Throw → Reaction
  | .exit => if depth > 0 then .ret [] else .stay []
  | .topLevel => if depth = 0 then .stay [] else .pass
  | .quit _ => .ret []
  | .userInterrupt =>
    if m.interrupt = .exit ∧ depth = 0 then .ret (terminate depth)
    else if depth = 0 ∨ m.interrupt ≠ .topLevel then .stay [.interrupt]
    else .pass
  | .error =>
    if m.error = .exit ∧ depth = 0 then .ret (.error :: terminate depth)
    else if depth = 0 ∨ m.error ≠ .topLevel then .stay [.error]
    else .pass
  | .termInterrupt => .ret (terminate depth)
  | .other _ => .pass

/-- The `catch` around each call of `recursive-edit`, the innermost first; the outermost event loop is not in the list. -/
abbrev Frames := List (Option Nat)

inductive St
  | run (fs : Frames) (depth : Int) (m : Modes)
  | ended (status : Int)
  deriving DecidableEq

/-- main.c:450-481 `rep_top_level_exit` -/
def exitStatus : Option Throw → Int
  | some .error => 10
  | some (.quit n) => n
  | _ => 0

def caught (c : Option Nat) : Throw → Bool
  | .other k => c == some k
  | _ => false

/-- main.c:507-519: whether the outermost loop is entered again. -/
def again : Throw → Bool
  | .quit _ | .error | .termInterrupt | .userInterrupt => false
  | _ => true

/-- A throw that reaches the innermost event loop. When a loop returns, `rep_throw_value` has been cleared (main.c:388) and the depth is decremented (:494). -/
def raise (m : Modes) : Frames → Int → Throw → St × List Report
  | [], depth, t =>
    match handle m depth t with
    | .stay rs => (.run [] depth m, rs)
    | .ret rs => (.ended (exitStatus none), rs)
    | .pass => if depth - 1 < 0 && again t then (.run [] (depth - 1 + 1) m, [.noCatcher]) else (.ended (exitStatus (some t)), [])
  | c :: fs, depth, t =>
    match handle m depth t with
    | .stay rs => (.run (c :: fs) depth m, rs)
    | .ret rs => (.run fs (depth - 1) m, rs)
    | .pass => if caught c t then (.run fs (depth - 1) m, []) else raise m fs (depth - 1) t

/-- What happens. -/
inductive Ev
  /-- `(recursive-edit)`, perhaps in a `catch` -/
  | edit (c : Option Nat)
  | raise (t : Throw)
  | setModes (m : Modes)

def step (s : St) (e : Ev) : St × List Report :=
  match s with
  | .ended n => (.ended n, [])
  | .run fs depth m =>
    match e with
    | .edit c => (.run (c :: fs) (depth + 1) m, [])
    | .raise t => EditLoop.raise m fs depth t
    | .setModes m => (.run fs depth m, [])

def exec (s : St) : List Ev → St
  | [] => s
  | e :: es => exec (step s e).1 es

/-- main.c:29, 492: the depth is 0 in the outermost loop. -/
def start : St := .run [] 0 {}

end Rep.EditLoop
