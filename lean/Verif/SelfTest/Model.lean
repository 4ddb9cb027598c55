import Verif.StructWalk.Model
/-!
# The self tests

Models lisp/rep/test/framework.jl (`test`, `check`, `assert`, `self-test/failed`, `abort-if-fatal`, `run-module-self-tests`, `run-all-self-tests`,
`run-self-tests-and-exit`, `autoload-self-test`) and lisp/rep/util/autoloader.jl. The table of tests is a structure (`Rep.StructWalk`).

Simplifications: what a test function does is the list of its `test`, `check` and `assert` forms with their outcomes, and perhaps other errors. A library that
is loaded defines tests and does nothing else that matters.
-/
namespace Rep.SelfTest
open Rep.StructWalk

/-- framework.jl:47-49 -/
inductive Kind
  | test | check | assertion
  deriving DecidableEq

/-- framework.jl:60-67, 81-85: nothing, `exit` or `signal`. -/
inductive Action
  | nothing | exit | signal
  deriving DecidableEq

/-- framework.jl:47-51 `action-alist` and `disabled`. -/
structure Config where
  action : Kind → Action
  disabled : Kind → Bool

/-- A form of a test function: the kind and whether the argument is true; or something that signals an error. -/
inductive Form
  | form (k : Kind) (ok : Bool)
  | error
  deriving DecidableEq

/-- How a test function ends: the number of failed tests; by `(throw 'exit 1)`; by an error. -/
inductive Out
  | ok (n : Nat)
  | thrown
  | error
  deriving DecidableEq

/-- framework.jl:60-67 `abort-if-fatal`, :69-76, and the macros (:125-135). -/
def runForms (c : Config) : List Form → Nat → Out
  | [], n => .ok n
  | .form k ok :: r, n =>
    if c.disabled k || ok then runForms c r n
    else
      let n := if k = .test then n + 1 else n
      match c.action k with
      | .nothing => runForms c r n
      | .exit => .thrown
      | .signal => .error
  | .error :: _, _ => .error

/-- What the table contains: a test function, or the mark left by `autoload-self-test`, with the library (autoloader.jl:43-46). `autoload-self-test` does nothing
for a module that has an entry. -/
inductive Entry
  | tests (fs : List Form)
  | auto (lib : Nat)

/-- The libraries: what each does to the table when it is loaded. -/
abbrev Libs := Nat → List (Op Entry)

/-- `symbol-table-set` as seen by `symbol-table-ref` (lisp/rep/data/symbol-table.jl:50-56). -/
def seen (m : Sym → Option Entry) : Op Entry → Sym → Option Entry
  | .define y e => fun w => if w = y then some e else m w
  | .remove y => fun w => if w = y then none else m w

/-- autoloader.jl:52-59 `autoloader-ref`: what happens to the table, and the test found. -/
def testRef (libs : Libs) (m : Sym → Option Entry) (x : Sym) (v : Entry) : List (Op Entry) × Option Entry :=
  match v with
  | .tests fs => ([], some (.tests fs))
  | .auto lib => (libs lib, (libs lib).foldl seen m x)

/-- framework.jl:109-116 `run-module-self-tests`. If the library doesn't define the test, the mark is called as a function, which is an error. -/
def runModule (c : Config) (libs : Libs) (m : Sym → Option Entry) (x : Sym) (v : Entry) : Out × List (Op Entry) :=
  match testRef libs m x v with
  | (ops, none) => (.ok 0, ops)
  | (ops, some (.tests fs)) => (runForms c fs 0, ops)
  | (ops, some (.auto _)) => (.error, ops)

/-- framework.jl:105-106: the function that is called for each module. -/
def step (c : Config) (libs : Libs) : Fun Nat Entry := fun failures m x v =>
  match runModule c libs m x v with
  | (.ok n, ops) => some (failures + n, ops)
  | _ => none

/-- framework.jl:103-107 `run-all-self-tests`. -/
def runAll (c : Config) (libs : Libs) (k : Nat) (t : Table Entry) : List (Sym × Entry) × End Nat Entry := walk (step c libs) k t 0

/-- The exit status of `rep --check`: framework.jl:118-120; an error ends in `(throw 'quit 1)` (lisp/rep/user.jl:90-92); a throw for another tag than `quit`
gives 0 (src/rep.c:32-35, src/main.c:477-480). Nothing if the walk doesn't end, or uses freed memory. What ended the last call is found from its arguments. -/
def status (c : Config) (libs : Libs) (k : Nat) (t : Table Entry) : Option Nat :=
  match runAll c libs k t with
  | (_, .done n _) => some (if n = 0 then 0 else 1)
  | (cs, .exit t) =>
    match cs.getLast? with
    | some (x, v) => some (if (runModule c libs (lookup t) x v).1 = .thrown then 0 else 1)
    | none => some 1
  | _ => none

end Rep.SelfTest
