import Verif.Backquote.Model
import Mathlib.Control.Basic

/-
What a template stands for, after the documentation of backquote.
-/

namespace Rep.Backquote.Spec

variable {St : Type}

/-- Computations that may change the state and may fail. -/
abbrev M (St α : Type) := OptionT (StateM St) α

def isList : Sx → Bool
  | .nil => true
  | .cons _ _ => true
  | _ => false

/-- The elements of a list followed by `r`. -/
def onto (r : Sx) : Sx → Sx
  | .cons a d => .cons a (onto r d)
  | _ => r

/-- A list, which has to be one, followed by `r`. -/
def join (v r : Sx) : M St Sx := if isList v then pure (onto r v) else failure

/-- `append` of objects: all but the last have to be lists (lispcmds.c:205-239). -/
def appendAll : List Sx → M St Sx
  | [] => pure .nil
  | [x] => pure x
  | x :: l => if isList x then (onto · x) <$> appendAll l else failure

/-- `(list* x … r)`. -/
def consAll (r : Sx) : List Sx → Sx
  | [] => r
  | x :: l => .cons x (consAll r l)

/-- An evaluator for which `quote` and the list functions are the standard ones and call their
arguments from left to right.  Anything can be said about other forms. -/
structure Standard (eval : Sx → M St Sx) : Prop where
  nil : eval .nil = pure .nil
  atom n : eval (.atom n) = pure (.atom n)
  quote x : eval (.cons (.sym .quote) (.cons x .nil)) = pure x
  list args : eval (.cons (.sym .list) (.ofList args)) = do return .ofList (← args.mapM eval)
  cons a b : eval (.cons (.sym .cons) (.cons a (.cons b .nil))) = do return .cons (← eval a) (← eval b)
  listStar args last : eval (.cons (.sym .listStar) (.ofList (args ++ [last]))) = do
    let vs ← args.mapM eval
    let r ← eval last
    return consAll r vs
  append args : eval (.cons (.sym .append) (.ofList args)) = do appendAll (← args.mapM eval)

/-- `,@e` -/
def spliceOf : Sx → Option Sx
  | .cons (.sym .splice) d => some d.car
  | _ => none

/-- What a template (or the rest of one) stands for: itself, with the value of `e` for `,e` and, among
the elements of a list, the elements of the value of `e` for `,@e`. -/
def fill (eval : Sx → M St Sx) : Sx → M St Sx
  | .cons a d =>
    if a = .sym .unquote then eval d.car
    else
      match spliceOf a with
      | some e => do
        let v ← eval e
        if d = .nil then pure v
        else
          let r ← fill eval d
          join v r
      | none => do
        let x ← fill eval a
        let r ← fill eval d
        pure (.cons x r)
  | t => pure t

/-- A list that is only the splice of a quoted form: `(,@'x)`. -/
def lone : Sx → Bool
  | .cons a .nil =>
    match spliceOf a with
    | some e => e.car = .sym .quote
    | none => false
  | _ => false

/-- No vector, no nested backquote and no `(,@'x)` inside a template. -/
def good : Sx → Bool
  | .vec _ => false
  | .cons a d =>
    a = .sym .unquote || (((spliceOf a).isSome || (a.car ≠ .sym .backquote && !lone a && good a)) && good d)
  | _ => true

/-- A template of which all this holds and which is not itself a splice. -/
def Template (t : Sx) : Prop := good t = true ∧ lone t = false ∧ t.car ≠ .sym .backquote ∧ t.car ≠ .sym .splice

end Rep.Backquote.Spec
