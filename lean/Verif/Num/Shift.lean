import Verif.Num.Props

/-
C06, counts of shifts that are bignums.
-/

namespace Rep.Number

/-- Without guard: a right shift of a negative or positive integer by any number of places, however many,
is division by a power of two rounded down, so -1 or 0 for a count beyond all fixnums.  Instead the count
is taken modulo 2^62: every multiple of it leaves the number as it is. -/
theorem C06_count_violated (a m : Int) (hm : -2 ≤ m ∧ m < 2) : ash (.fix a) (.big (m * 2 ^ 62)) = .ok (makeLonglongInt a) := by
  have h : coerceInt (.big (m * 2 ^ 62)) = 0 := by
    have : m = -2 ∨ m = -1 ∨ m = 0 ∨ m = 1 := by omega
    rcases this with h | h | h | h <;> subst h <;> decide +kernel
  unfold ash
  simp only [integerp, Bool.not_true, Bool.false_eq_true, if_false, h]
  simp

example : ash (.fix 1) (.big (-(2 ^ 62))) = .ok (.fix 1) := by decide +kernel

end Rep.Number
