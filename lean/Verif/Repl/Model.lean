import Mathlib.Data.List.Basic
/-!
# The read-eval-print loop

Models lisp/rep/util/repl.jl: `repl-iterate` (:63-99) and `find-command` (:185-206).

Simplifications: the reader (C44, C45) is modelled on tokens; a comment ends with its line, which `readline` and `read-line` return with its newline
(src/readline.c:194-201, src/streams.c:656-658), so lines are lists of tokens without comments. A form is represented by its tokens. Lines that begin with a
comma are commands and are not part of the sessions here. What evaluation does is not modelled; an error in it is reported, and the loop goes on.
-/
namespace Rep.Repl

inductive Tok
  | lp | rp | quo
  | atom (n : Nat)
  deriving DecidableEq

/-- How reading of one form ends: with the text after it, by the end of the text, by another error. -/
inductive Scan
  | done (rest : List Tok)
  | premature
  | bad
  deriving DecidableEq

/-- `read-from-string`, in `d` lists; `q`: a quote was read. -/
def scan (d : Nat) (q : Bool) : List Tok → Scan
  | [] => .premature
  | .lp :: r => scan (d + 1) false r
  | .rp :: r => if d = 0 || q then .bad else if d = 1 then .done r else scan (d - 1) false r
  | .atom _ :: r => if d = 0 then .done r else scan d false r
  | .quo :: r => scan d true r

/-- What the loop does. -/
inductive Did
  | eval (form : List Tok)
  | report
  deriving DecidableEq

/-- repl.jl:63-99 `repl-iterate`: the pending text, and what is done. -/
def iterate (pending line : List Tok) : List Tok × List Did :=
  let input := pending ++ line
  if input = [] then ([], [])
  else
    match scan 0 false input with
    | .premature => (input, [])
    | .bad => ([], [.report])
    | .done rest => ([], [.eval (input.take (input.length - rest.length))])

/-- repl.jl:109-128: the lines one after the other. -/
def session (pending : List Tok) : List (List Tok) → List Tok × List Did
  | [] => (pending, [])
  | l :: ls =>
    let r := iterate pending l
    let s := session r.1 ls
    (s.1, r.2 ++ s.2)

/-- The result of `find-command`. -/
inductive Found
  | command (name : List Char)
  | unknown
  | ambiguous
  deriving DecidableEq

/-- repl.jl:191-206: the loop over the commands. -/
def findLoop (name : List Char) : List (List Char) → Option (List Char) → Found
  | [], some m => .command m
  | [], none => .unknown
  | c :: cs, m =>
    if name.isPrefixOf c then
      match m with
      | some _ => .ambiguous
      | none => findLoop name cs (some c)
    else findLoop name cs m

/-- repl.jl:185-206 `find-command` -/
def findCommand (cmds : List (List Char)) (name : List Char) : Found := if name ∈ cmds then .command name else findLoop name cmds none

end Rep.Repl
