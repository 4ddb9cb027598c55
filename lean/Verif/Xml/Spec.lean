import Verif.Xml.Model

/-
What can be written as XML text: names are free of the characters that end them.
-/

namespace Rep.Xml.Spec

/-- A character of a name. -/
def NameChar (c : Char) : Prop := c ∉ [' ', '\n', '\t', '>', '=', '/']

/-- The name of a parameter. -/
def ParamName (n : List Char) : Prop := (∀ c ∈ n, NameChar c) ∧ n.head? ≠ some '?' ∧ n.head? ≠ some '\r'

/-- A tag: not empty, and not to be taken for another kind of item. -/
def Tag (n : List Char) : Prop :=
  (∀ c ∈ n, NameChar c) ∧ n ≠ [] ∧ n.head? ≠ some '?' ∧ n.head? ≠ some '!' ∧ n.head? ≠ some '\r'

/-- No two strings follow each other. -/
def Apart : List Item → Prop
  | .text _ :: .text t :: is => False ∧ Apart (.text t :: is)
  | _ :: is => Apart is
  | [] => True

/-- Items that text can stand for: strings that are not empty, elements, and `?` items, which have parameters and no body. -/
inductive Good : Item → Prop
  | text {s} : s ≠ [] → Good (.text s)
  | elem {tag params body} : Tag tag → (∀ p ∈ params, ParamName p.1) → (∀ i ∈ body, Good i) → Apart body → Good (.elem tag params body)
  | question {n params} : Tag n ∨ (n.head? = some '!' ∨ n.head? = some '?') ∧ (∀ c ∈ n, NameChar c) → (∀ p ∈ params, ParamName p.1) → params ≠ [] →
      Good (.elem ('?' :: n) params [])

end Rep.Xml.Spec
