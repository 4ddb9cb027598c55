import Verif.Regex.Model

/-
What regular expressions mean, independently of the compiled program.
-/

namespace Rep.Regex

namespace Spec

/-- Does the atom `o` match the text from `i` to `j`? -/
def one (x : Ctx) (o : One) (i j : Nat) : Prop :=
  match o with
  | .bol => j = i ∧ i = 0 ∧ x.bol = true
  | .eol => j = i ∧ i = x.text.length
  | .wedge => j = i ∧ i ≤ x.text.length ∧
      ((i = 0 ∧ x.bol = true) ∨ i = x.text.length ∨ isWord (x.before i) ≠ isWord (x.text.getD i 0))
  | .nwedge => j = i ∧ i < x.text.length ∧
      ¬ (i = 0 ∧ x.bol = true) ∧ isWord (x.before i) = isWord (x.text.getD i 0)
  | .any => j = i + 1 ∧ i < x.text.length
  | .set neg s => j = i + 1 ∧ i < x.text.length ∧ (x.text.getD i 0 ∈ s ↔ neg = false)
  | .lit s => j = i + s.length ∧ j ≤ x.text.length ∧
      ∀ k, k < s.length → x.same (s.getD k 0) (x.text.getD (i + k) 0) = true
  | .word => j = i + 1 ∧ i < x.text.length ∧ isWord (x.text.getD i 0) = true
  | .nword => j = i + 1 ∧ i < x.text.length ∧ isWord (x.text.getD i 0) = false
  | .wspc => j = i + 1 ∧ i < x.text.length ∧ isSpace (x.text.getD i 0) = true
  | .nwspc => j = i + 1 ∧ i < x.text.length ∧ isSpace (x.text.getD i 0) = false
  | .digi => j = i + 1 ∧ i < x.text.length ∧ isDigit (x.text.getD i 0) = true
  | .ndigi => j = i + 1 ∧ i < x.text.length ∧ isDigit (x.text.getD i 0) = false

/-- The pattern `r` matches the text from `i` to `j`. -/
inductive Matches (x : Ctx) : Re → Nat → Nat → Prop
  | eps {i} : Matches x .eps i i
  | one {o i j} : one x o i j → Matches x (.one o) i j
  | grp {n r i j} : Matches x r i j → Matches x (.grp n r) i j
  | seq {a b i j k} : Matches x a i j → Matches x b j k → Matches x (.seq a b) i k
  | left {a b i j} : Matches x a i j → Matches x (.alt a b) i j
  | right {a b i j} : Matches x b i j → Matches x (.alt a b) i j
  | last {a i j} : Matches x a i j → Matches x (.last a) i j
  | opt0 {g r i} : Matches x (.rep .opt g r) i i
  | opt1 {g r i j} : Matches x r i j → Matches x (.rep .opt g r) i j
  | star0 {g r i} : Matches x (.rep .star g r) i i
  | star1 {g r i j k} : Matches x r i j → Matches x (.rep .star g r) j k → Matches x (.rep .star g r) i k
  | plus {g r i j k} : Matches x r i j → Matches x (.rep .star g r) j k → Matches x (.rep .plus g r) i k

/-! ### Which match is found

All ways to match, in the order of preference: earlier alternatives first, more repetitions first
for greedy operators, fewer for the others.  A way is an end and what happened with the groups. -/

inductive Ev
  | opn (n pos : Nat)
  | close (n pos : Nat)
  deriving DecidableEq, Repr

abbrev Way := Nat × List Ev

/-- First `a`, then `b` from where `a` ended. -/
def andThen (a : List Way) (b : Nat → List Way) : List Way :=
  a.flatMap fun w => (b w.1).map fun w' => (w'.1, w.2 ++ w'.2)

/-- Repetition; `n` bounds the number of rounds. -/
def star (f : Nat → List Way) (greedy : Bool) : Nat → Nat → List Way
  | 0, i => [(i, [])]
  | n + 1, i =>
    if greedy then andThen (f i) (star f greedy n) ++ [(i, [])]
    else (i, []) :: andThen (f i) (star f greedy n)

/-- Where an atom that matches at `i` ends. -/
def oneEnd (x : Ctx) (o : One) (i : Nat) : Option Nat :=
  if i > x.text.length then none
  else
    match o with
    | .bol => if x.bol && i == 0 then some i else none
    | .eol => if i == x.text.length then some i else none
    | .wedge =>
      if (x.bol && i == 0) || i == x.text.length || isWord (x.before i) != isWord (x.text.getD i 0) then some i else none
    | .nwedge =>
      if (x.bol && i == 0) || i == x.text.length || isWord (x.before i) != isWord (x.text.getD i 0) then none else some i
    | .lit s =>
      if i + s.length ≤ x.text.length ∧
          (List.range s.length).all (fun k => x.same (s.getD k 0) (x.text.getD (i + k) 0)) then some (i + s.length)
      else none
    | .any => if i < x.text.length then some (i + 1) else none
    | .set neg s => if i < x.text.length && (s.contains (x.text.getD i 0) != neg) then some (i + 1) else none
    | .word => if i < x.text.length && isWord (x.text.getD i 0) then some (i + 1) else none
    | .nword => if i < x.text.length && !isWord (x.text.getD i 0) then some (i + 1) else none
    | .wspc => if i < x.text.length && isSpace (x.text.getD i 0) then some (i + 1) else none
    | .nwspc => if i < x.text.length && !isSpace (x.text.getD i 0) then some (i + 1) else none
    | .digi => if i < x.text.length && isDigit (x.text.getD i 0) then some (i + 1) else none
    | .ndigi => if i < x.text.length && !isDigit (x.text.getD i 0) then some (i + 1) else none

def ways (x : Ctx) : Re → Nat → List Way
  | .eps, i => [(i, [])]
  | .one o, i =>
    match oneEnd x o i with
    | none => []
    | some j => [(j, [])]
  | .grp n r, i => (ways x r i).map fun w => (w.1, .opn n i :: (w.2 ++ [.close n w.1]))
  | .seq a b, i => andThen (ways x a i) (ways x b)
  | .alt a b, i => ways x a i ++ ways x b i
  | .last a, i => ways x a i
  | .rep .opt g r, i => if g then ways x r i ++ [(i, [])] else (i, []) :: ways x r i
  | .rep .star g r, i => star (ways x r) g (x.text.length + 1) i
  | .rep .plus g r, i => andThen (ways x r i) (star (ways x r) g (x.text.length + 1))

/-- A group is where it was last. -/
def caps : List Ev → Caps
  | [] => .empty
  | .opn n i :: l => (caps l).open n i
  | .close n i :: l => (caps l).close n i

/-- Where a search finds the pattern: the first place at which there is a way to match, and there
the preferred way. -/
def search (x : Ctx) (r : Re) : Option (Nat × Way) :=
  (List.range (x.text.length + 1)).findSome? fun i => (ways x r i).head?.map fun w => (i, w)

/-- What is known after a match from `i` in the way `w`: entry 0 is the whole match. -/
def groups (i : Nat) (w : Way) : Caps :=
  ⟨fun k => if k = 0 then some i else (caps w.2).st k, fun k => if k = 0 then some w.1 else (caps w.2).en k⟩

end Spec

/-! ### Patterns for which the code is right -/

/-- The matcher's test of the atom succeeds at the NUL at the end of the text. -/
def One.eatsNul : One → Bool
  | .nword | .nwspc | .ndigi => true
  | _ => false

/-- The pattern ends with a non-greedy `*?` or `+?` behind a group. -/
def Re.tailNg : Re → Bool
  | .rep .star false r => !r.simple
  | .rep .plus false r => !r.simple
  | .seq a b => if b = .eps then a.tailNg else b.tailNg
  | _ => false

/-- No `??`, no `(…)*?` or `(…)+?` just before a `|`, and `\W`, `\S`, `\D` only under `*` or `+`.
With `nocase`, no bytes from 128 up in literal strings. -/
def Re.good (nocase : Bool) : Re → Bool
  | .eps => true
  | .one o => !o.eatsNul &&
    (match o with
      | .lit s => !nocase || s.all (fun c => decide (c < 128))
      | _ => true)
  | .grp _ r => r.good nocase
  | .rep m g r =>
    (m != .opt || g) &&
      (if m != .opt && r.simple then
        (match r with
          | .one (.lit s) => !nocase || s.all (fun c => decide (c < 128))
          | _ => true)
      else r.good nocase)
  | .seq a b => a.good nocase && b.good nocase
  | .alt a b => a.good nocase && !a.tailNg && b.good nocase
  | .last a => a.good nocase

end Rep.Regex
