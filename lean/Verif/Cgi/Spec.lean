/-
Specification: the encoding of forms, and domain names as lists of labels.
-/

namespace Rep.Cgi.Spec

/-- The value of a hexadecimal digit. -/
inductive Hex : Nat → Nat → Prop
  | digit (d : Nat) (h : d < 10) : Hex (48 + d) d
  | upper (d : Nat) (h : 10 ≤ d) (h' : d < 16) : Hex (55 + d) d
  | lower (d : Nat) (h : 10 ≤ d) (h' : d < 16) : Hex (87 + d) d

/-- Ways to write a text in a form: characters other than `%`, `+`, `&`, `=` as themselves, a space as
`+`, any byte as `%` and two hexadecimal digits. -/
inductive Enc : List Nat → List Nat → Prop
  | nil : Enc [] []
  | same (c : Nat) (h : c ≠ 37) (h1 : c ≠ 43) (h2 : c ≠ 38) (h3 : c ≠ 61) {t s : List Nat} : Enc t s → Enc (c :: t) (c :: s)
  | plus {t s : List Nat} : Enc t s → Enc (32 :: t) (43 :: s)
  | pct {x y a b : Nat} (hx : Hex x a) (hy : Hex y b) {t s : List Nat} : Enc t s → Enc ((16 * a + b) :: t) (37 :: x :: y :: s)

/-- Ways to write a list of names and values: `name=value`, separated by `&`, in the end perhaps one
more `&`. -/
inductive EncForm : List (List Nat × List Nat) → List Nat → Prop
  | nil : EncForm [] []
  | last {n v s t : List Nat} : Enc n s → Enc v t → EncForm [(n, v)] (s ++ 61 :: t)
  | cons {n v s t u : List Nat} {ps : List (List Nat × List Nat)} : Enc n s → Enc v t → EncForm ps u →
      EncForm ((n, v) :: ps) (s ++ 61 :: t ++ 38 :: u)

/-- A name of a domain is the labels with dots between. -/
def name : List (List Nat) → List Nat
  | [] => []
  | [l] => l
  | l :: ls => l ++ 46 :: name ls

def NoDots (ls : List (List Nat)) : Prop := ∀ l ∈ ls, 46 ∉ l

/-- The domain itself and all above it. -/
def uppers : List (List Nat) → List (List (List Nat))
  | [] => []
  | l :: ls => (l :: ls) :: uppers ls

end Rep.Cgi.Spec
