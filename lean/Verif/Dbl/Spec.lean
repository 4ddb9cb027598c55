import Verif.Dbl.Model
import Mathlib.Order.WithBot

/-
What C68, C69 and C70 say: numbers by the rationals they stand for.
-/

namespace Rep.Dbl.Spec

/-- The value of a number; infinite numbers and `nan` have none. -/
def value : Number → Option ℚ
  | .ex (.fix w) => some w
  | .ex (.big z) => some z
  | .ex (.rat q) => some q
  | .fl (.fin q) => some q
  | .fl _ => none

def exact : Number → Bool
  | .ex _ => true
  | .fl _ => false

/-- The finite numbers a `double` can hold: `m * 2^e` with 53 bits in `m`. -/
def Double (q : ℚ) : Prop := ∃ m e : Int, |m| < 2 ^ 53 ∧ -1074 ≤ e ∧ e ≤ 971 ∧ q = m * 2 ^ e

/-- Numbers which can exist: fixnums have 62 bits, floating point numbers are doubles. -/
def Valid : Number → Prop
  | .ex (.fix w) => Rep.Number.minInt ≤ w ∧ w ≤ Rep.Number.maxInt
  | .fl (.fin q) => Double q
  | _ => True

/-- `n` is the integer nearest to `q`, the even one if there are two. -/
def Nearest (q : ℚ) (n : Int) : Prop := |q - n| ≤ 1 / 2 ∧ (|q - n| = 1 / 2 → n % 2 = 0)

/-- `r` is `x` rounded to an integer which is related to it by `R`, and as exact as `x`; infinite numbers stay. -/
def Rounds (R : ℚ → Int → Prop) (x r : Number) : Prop :=
  exact r = exact x ∧
    match value x with
    | some q => ∃ n, R q n ∧ value r = some (n : ℚ)
    | none => r = x

end Rep.Dbl.Spec

namespace Rep.Dbl.Spec

/-- The place of a number in the order, `nan` has none. -/
def place : Number → Option (WithBot (WithTop ℚ))
  | .ex (.fix w) => some (((w : ℚ) : WithTop ℚ) : WithBot (WithTop ℚ))
  | .ex (.big z) => some (((z : ℚ) : WithTop ℚ) : WithBot (WithTop ℚ))
  | .ex (.rat q) => some ((q : WithTop ℚ) : WithBot (WithTop ℚ))
  | .fl (.fin q) => some ((q : WithTop ℚ) : WithBot (WithTop ℚ))
  | .fl (.inf true) => some ⊥
  | .fl (.inf false) => some ((⊤ : WithTop ℚ) : WithBot (WithTop ℚ))
  | .fl .nan => none

end Rep.Dbl.Spec
