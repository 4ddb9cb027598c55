import Mathlib.Data.List.Basic
/-!
# Documentation strings

Models lisp/rep/lang/doc.jl: `make-key`, `doc-file-ref`, `doc-file-set`, `documentation-property`, `documentation`, `document-variable`, `add-documentation`,
`add-documentation-params`.

Simplifications: names of symbols and structures are their characters. A database is a map from keys to strings; opening one doesn't fail. The structure of a
function, if it isn't given, is found before (doc.jl:158-168); `incore` is the string in the function itself (:170-177).
-/
namespace Rep.DocFile

abbrev Name := List Char
abbrev Db := Name → Option Name

/-- The characters put before a key: none, or the character 0 (doc.jl:110-113). -/
inductive Kind
  | value | param
  deriving DecidableEq

/-- doc.jl:105-113 `make-key` -/
def key (k : Kind) (name : Name) (structure_ : Option Name) : Name :=
  (match k with | .value => [] | .param => [Char.ofNat 0]) ++ (match structure_ with | some s => s ++ '#' :: name | none => name)

/-- doc.jl:143-146 `documentation-property` -/
def property : Option Name → Name
  | some s => "documentation".toList ++ '#' :: s
  | none => "documentation".toList

/-- `documentation-files`, the place of `documentation-file` in it, and the properties of symbols. -/
structure St where
  files : List Db
  own : Nat := 0
  props : Name → Name → Option Name := fun _ _ => none

/-- doc.jl:115-129 `doc-file-ref`: the first file that has the key. -/
def fileRef (files : List Db) (k : Name) : Option Name := files.findSome? fun db => db k

/-- doc.jl:131-138 `doc-file-set` -/
def fileSet (s : St) (k v : Name) : St := { s with files := s.files.modify s.own fun db j => if j = k then some v else db j }

/-- doc.jl:193-205; parameters are given as their description. -/
inductive Op
  | var (sym : Name) (st : Option Name) (doc : Name)
  | add (sym : Name) (st : Option Name) (doc : Name)
  | params (sym : Name) (st : Option Name) (doc : Name)

def step (s : St) : Op → St
  | .var sym st doc => { s with props := fun x p => if x = sym ∧ p = property st then some doc else s.props x p }
  | .add sym st doc => fileSet s (key .value sym st) doc
  | .params sym st doc => fileSet s (key .param sym st) doc

def run (s : St) (ops : List Op) : St := ops.foldl step s

/-- `(and structure X)` (doc.jl:181, 189, 94) -/
def ifStruct (st : Option Name) (x : Option Name → Option Name) : Option Name := if st.isSome then x st else none

/-- doc.jl:148-191 `documentation` -/
def documentation (s : St) (sym : Name) (st : Option Name) (incore : Option Name) : Option Name :=
  incore.or (((ifStruct st fun st => s.props sym (property st)).or (s.props sym (property none))).or
    ((ifStruct st fun st => fileRef s.files (key .value sym st)).or (fileRef s.files (key .value sym none))))

/-- doc.jl:93-97: the parameters in `describe-value`. -/
def paramsOf (s : St) (sym : Name) (st : Option Name) : Option Name :=
  (ifStruct st fun st => fileRef s.files (key .param sym st)).or (fileRef s.files (key .param sym none))

end Rep.DocFile
