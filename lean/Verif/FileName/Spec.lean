import Verif.FileName.Model

/-
What a file name means, without reference to the code: the names between the slashes are followed
one after the other.  (Links are not looked at.)
-/

namespace Rep.FileName

/-- A place that a name leads to: from the root or from the directory one is in, so many directories
up, and then down through the given ones (the last one first). -/
structure Place where
  root : Bool
  ups : Nat
  names : List Str
  deriving DecidableEq, Repr

/-- Follow one component: an empty one and `.` stay where they are, `..` goes up (the root is above
itself), any other one goes down. -/
def Place.follow (p : Place) (c : Str) : Place :=
  if c = [] ∨ c = ['.'] then p
  else if c = ['.', '.'] then
    match p.names with
    | _ :: r => { p with names := r }
    | [] => if p.root then p else { p with ups := p.ups + 1 }
  else { p with names := c :: p.names }

/-- The components of a name: what is between the slashes. -/
def comps : Str → List Str
  | [] => [[]]
  | c :: r =>
    if c = '/' then [] :: comps r
    else match comps r with
      | w :: ws => (c :: w) :: ws
      | [] => [[c]]

/-- Follow a name from a place; a name that begins with a slash begins at the root. -/
def Place.go (p : Place) (s : Str) : Place :=
  match s with
  | '/' :: _ => (comps s).foldl Place.follow ⟨true, 0, []⟩
  | _ => (comps s).foldl Place.follow p

/-- Where a name leads to. -/
def place (s : Str) : Place := Place.go ⟨false, 0, []⟩ s

/-- A component that is the name of something. -/
def Plain (c : Str) : Prop := c ≠ [] ∧ '/' ∉ c ∧ c ≠ ['.'] ∧ c ≠ ['.', '.']

/-- A name with nothing in it that could be left out: `.` itself, or perhaps a `/`, or some `../`,
then plain components, each followed by one slash, which the last one may lack. -/
def Simple (t : Str) : Prop :=
  t = ['.'] ∨ (t ≠ [] ∧ ∃ (root : Bool) (ups : Nat) (names : List Str) (last : Str),
    (root = true → ups = 0) ∧
    (∀ n ∈ names, Plain n) ∧
    (last = [] ∨ Plain last ∨ (last = ['.', '.'] ∧ names = [] ∧ root = false)) ∧
    t = (if root then ['/'] else []) ++ (List.replicate ups ['.', '.', '/']).flatten ++
      (names.map (· ++ ['/'])).flatten ++ last)

end Rep.FileName
