import Verif.Environ.Looking

/-
The environment of processes: `getenv`, `setenv` and `unsetenv` (lisp/rep/system/environ.jl),
`process-environment` at the start (src/unix_main.c:938-951) and what a subprocess gets
(src/unix_processes.c:528-550).  Strings are lists of bytes.  Patterns are matched by the model of
the regular expressions; `depth` and `fuel` are passed to it.  Simplified: `process-environment` is
a proper list of strings, changed by these functions only.
-/

namespace Rep.Environ

open Rep.Regex (quote stringMatch Outcome)

abbrev Str := List Nat

/-- The pattern `(concat (quote-regexp name) ?=)` (environ.jl:34, 45, 57). -/
def pattern (name : Str) : Str := quote name ++ [61]

/-- `string-looking-at` and `match-end`; `none`: it does not return. -/
def looking (depth fuel : Nat) (re str : Str) : Option (Option Nat) :=
  match stringMatch true re str 0 false depth fuel with
  | .noMatch => some none
  | .found _ en => (en 0).map some
  | _ => none

/-- The loop of `getenv` (environ.jl:35-39). -/
def getLoop (depth fuel : Nat) (re : Str) : List Str → Option (Option Str)
  | [] => some none
  | s :: rest => do
    match ← looking depth fuel re s with
    | some k => some (some (s.drop k))
    | none => getLoop depth fuel re rest

/-- `getenv` (environ.jl:31-39). -/
def getenv (depth fuel : Nat) (name : Str) (env : List Str) : Option (Option Str) :=
  getLoop depth fuel (pattern name) env

/-- The loop of `setenv` (environ.jl:46-52); the second result tells that a string was replaced. -/
def setLoop (depth fuel : Nat) (re new : Str) : List Str → Option (List Str × Bool)
  | [] => some ([], false)
  | s :: rest => do
    match ← looking depth fuel re s with
    | some _ => some (new :: rest, true)
    | none =>
      let (l, b) ← setLoop depth fuel re new rest
      some (s :: l, b)

/-- `setenv` (environ.jl:42-52). -/
def setenv (depth fuel : Nat) (name value : Str) (env : List Str) : Option (List Str) := do
  let new := name ++ 61 :: value
  let (l, b) ← setLoop depth fuel (pattern name) new env
  some (if b then l else new :: env)

/-- `unsetenv` (environ.jl:55-60), with `delete-if`. -/
def unsetenv (depth fuel : Nat) (name : Str) : List Str → Option (List Str)
  | [] => some []
  | s :: rest => do
    let m ← looking depth fuel (pattern name) s
    let l ← unsetenv depth fuel name rest
    some (if m.isSome then l else s :: l)

inductive Op
  | set (name value : Str)
  | unset (name : Str)

def Op.run (depth fuel : Nat) (env : List Str) : Op → Option (List Str)
  | .set n v => setenv depth fuel n v env
  | .unset n => unsetenv depth fuel n env

def runAll (depth fuel : Nat) (env : List Str) : List Op → Option (List Str)
  | [] => some env
  | o :: os => do
    let env ← o.run depth fuel env
    runAll depth fuel env os

/-- `process-environment` at the start (unix_main.c:944-951). -/
def initial (environ : List Str) : List Str := environ.foldl (fun env s => s :: env) []

/-- `child_build_environ` (unix_processes.c:528-550): the environment of a subprocess, when that of
this process is `environ`. -/
def child (environ env : List Str) : List Str := if env = [] then environ else env

end Rep.Environ
