import Mathlib.Data.List.Basic
/-!
# Collecting strings for translation

Models lisp/rep/i18n/xgettext.jl: `register` (:47-54), `scan` and `scan-list` (:60-119), and the template that is written (`output-strings`, :133-156),
with `rep_string_print` (src/lisp.c:2293-2369) as it works when `print-escape` is `newlines`.

Simplifications: no helper function is set. `macrop` is given a symbol, so it is false (src/lispcmds.c:1825); the first element of a form isn't a list that
begins with `macro`. Lists are proper.
-/
namespace Rep.Xgettext

abbrev Str := List Char

/-- Forms; other atoms than nil, symbols and strings are like symbols here. -/
inductive Sx
  | nil
  | sym (n : String)
  | str (s : Str)
  | cons (a d : Sx)
  deriving DecidableEq

namespace Sx

/-- src/lispcmds.c:121-146: nil for atoms. -/
def car : Sx → Sx
  | cons a _ => a
  | _ => nil

def cdr : Sx → Sx
  | cons _ d => d
  | _ => nil

def elems : Sx → List Sx
  | cons a d => a :: elems d
  | _ => []

/-- `symbolp`; nil is a symbol. -/
def symbolp : Sx → Bool
  | nil | sym _ => true
  | _ => false

end Sx

open Sx

/-- xgettext.jl:76-79: every second element. -/
def values : List Sx → List Sx
  | _ :: e :: r => e :: values r
  | _ => []

/-- xgettext.jl:81-89: the forms that are scanned in a `let`. -/
def letParts (form : Sx) : List Sx :=
  let form := if form.car.symbolp then form.cdr else form
  (form.car.elems.flatMap fun v => v.cdr.elems) ++ form.cdr.elems

/-- xgettext.jl:60-119: the strings that are registered, in order. `inc` tells of which defining forms the documentation is included. The number bounds the
depth of the recursion. -/
def scan (inc : String → Bool) : Nat → Sx → List Str
  | 0, _ => []
  | n + 1, form =>
    match form with
    | cons (sym "_") (cons (str s) _) => [s]
    | cons (sym k) r =>
      if k = "quote" then []
      else if k = "setq" ∨ k = "setq-default" ∨ k = "%define" then (values r.elems).flatMap (scan inc n)
      else if k = "let" ∨ k = "let*" ∨ k = "letrec" ∨ k = "let-fluids" then (letParts r).flatMap (scan inc n)
      else if k = "function" then scan inc n r
      else if k = "cond" then (r.elems.flatMap Sx.elems).flatMap (scan inc n)
      else if k = "lambda" then r.cdr.elems.flatMap (scan inc n)
      else if k = "defun" ∨ k = "defmacro" ∨ k = "defsubst" ∨ k = "defvar" ∨ k = "defconst" then
        (if inc k then
          match r.cdr.cdr.car with
          | str d => [d]
          | _ => []
        else []) ++
        (if k = "defun" ∨ k = "defmacro" ∨ k = "defsubst" then r.cdr.cdr.elems else r.cdr.elems).flatMap (scan inc n)
      else if k = "define-structure" then r.cdr.cdr.cdr.elems.flatMap (scan inc n)
      else if k = "structure" then r.cdr.cdr.elems.flatMap (scan inc n)
      else form.elems.flatMap (scan inc n)
    | cons _ _ => form.elems.flatMap (scan inc n)
    | _ => []

/-- The strings found so far, each with its files. -/
abbrev Found := List (Str × List Str)

/-- xgettext.jl:47-54 `register`, in file `f`. -/
def register (f s : Str) (found : Found) : Found :=
  if found.any (fun c => c.1 == s) then
    found.map fun c => if c.1 = s then (if f ∈ c.2 then c else (c.1, f :: c.2)) else c
  else (s, [f]) :: found

/-- All that is registered, by file and string. -/
def registerAll (l : List (Str × Str)) : Found := l.foldl (fun found p => register p.1 p.2 found) []

/-- lisp.c:2333-2363 with `print-escape` being `newlines`: one character. -/
def esc (c : Char) : Str :=
  if c = '\t' then ['\\', 't'] else if c = '\n' then ['\\', 'n'] else if c = '\r' then ['\\', 'r'] else if c = '\x0c' then ['\\', 'f']
  else if c = '\\' then ['\\', '\\'] else if c = '"' then ['\\', '"'] else [c]

/-- `(format nil "%S" string)` -/
def quoted (s : Str) : Str := '"' :: (s.flatMap esc ++ ['"'])

/-- xgettext.jl:149-154: behind each `\n` the string is interrupted; `point` moves behind what was inserted, so only the rest is looked at. -/
def breaks : Str → Str
  | '\\' :: 'n' :: r => '\\' :: 'n' :: '"' :: '\n' :: '"' :: breaks r
  | c :: r => c :: breaks r
  | [] => []

/-- What follows `msgid`. -/
def msgid (s : Str) : Str := breaks (quoted s)

end Rep.Xgettext
