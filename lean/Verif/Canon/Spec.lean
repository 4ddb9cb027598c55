import Verif.Canon.Model

/-
What a name means: the walk that the system makes from a directory along the components of a name,
following links.
-/

namespace Rep.Canon

/-- The file system is a tree: what contains something is a directory; links are not empty. -/
def World.Tree (w : World) : Prop :=
  w.node [] = some .dir ∧ (∀ p n, w.node (p ++ [n]) ≠ none → w.node p = some .dir) ∧
    ∀ p, w.node p ≠ some (.link [])

/-- The directory where the walk goes on after a link with this text. -/
def from_ (d : List Name) (l : Text) : List Name := if l.head? = some '/' then [] else d

/-- `Resolves w d cs p`: from `d` along `cs` one comes to `p`.  (Slashes at the end of a name do not
count here.) -/
inductive Resolves (w : World) : List Name → List Name → List Name → Prop
  | done {d} : Resolves w d [] d
  | dot {d cs p} : w.node d = some .dir → Resolves w d cs p → Resolves w d (['.'] :: cs) p
  | up {d cs p} : w.node d = some .dir → Resolves w d.dropLast cs p →
      Resolves w d (['.', '.'] :: cs) p
  | name {d n cs p x} : n ≠ ['.'] → n ≠ ['.', '.'] → w.node (d ++ [n]) = some x →
      (∀ l, x ≠ .link l) → Resolves w (d ++ [n]) cs p → Resolves w d (n :: cs) p
  | link {d n cs p l} : n ≠ ['.'] → n ≠ ['.', '.'] → w.node (d ++ [n]) = some (.link l) →
      Resolves w (from_ d l) (comps l ++ cs) p → Resolves w d (n :: cs) p

/-- The same without the demand that `.` and `..` are looked up in directories only. -/
inductive Loosely (w : World) : List Name → List Name → List Name → Prop
  | done {d} : Loosely w d [] d
  | dot {d cs p} : Loosely w d cs p → Loosely w d (['.'] :: cs) p
  | up {d cs p} : Loosely w d.dropLast cs p → Loosely w d (['.', '.'] :: cs) p
  | name {d n cs p x} : n ≠ ['.'] → n ≠ ['.', '.'] → w.node (d ++ [n]) = some x →
      (∀ l, x ≠ .link l) → Loosely w (d ++ [n]) cs p → Loosely w d (n :: cs) p
  | link {d n cs p l} : n ≠ ['.'] → n ≠ ['.', '.'] → w.node (d ++ [n]) = some (.link l) →
      Loosely w (from_ d l) (comps l ++ cs) p → Loosely w d (n :: cs) p

/-- A name that may occur in a directory. -/
def Plain (n : Name) : Prop := n ≠ [] ∧ '/' ∉ n ∧ n ≠ ['.'] ∧ n ≠ ['.', '.']

/-- A place without links on the way. -/
def Canonical (w : World) (p : List Name) : Prop :=
  (∀ n ∈ p, Plain n) ∧ ∀ q, q <+: p → ∃ x, w.node q = some x ∧ ∀ l, x ≠ .link l

/-- Where the walk along a name starts. -/
def origin (w : World) (name : Text) : List Name := from_ w.cwd name

end Rep.Canon
