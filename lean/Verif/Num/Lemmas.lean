import Verif.Num.Spec
import Mathlib.Algebra.Field.Rat
import Mathlib.Tactic.Ring
import Mathlib.Tactic.FieldSimp
import Mathlib.Data.Rat.Cast.Defs

namespace Rep.Number

theorem Canonical.wf {n : Num} (h : Canonical n) : WF n := by
  cases n <;> simp_all [Canonical, WF]

theorem makeInt_range {x : Int} (h : -(2 ^ 61) ≤ x ∧ x < 2 ^ 61) : makeInt x = .fix x := by
  unfold makeInt
  rw [Int.bmod_eq_of_le]
  · exact_mod_cast by omega
  · exact_mod_cast by omega

theorem clong_range {x : Int} (h : -(2 ^ 63) ≤ x ∧ x < 2 ^ 63) : clong x = .ok x := by
  simp only [clong, if_pos h]

theorem range_iff (x : Int) : (minInt ≤ x ∧ x ≤ maxInt) ↔ (-(2 ^ 61) ≤ x ∧ x < 2 ^ 61) := by
  unfold minInt maxInt; omega

theorem makeLongInt_canonical (x : Int) : Canonical (makeLongInt x) := by
  unfold makeLongInt
  split
  · rename_i h; rw [range_iff] at h; rw [makeInt_range h]; exact h
  · rename_i h; rw [range_iff] at h; exact h

theorem makeLongInt_value (x : Int) : value (makeLongInt x) = x := by
  unfold makeLongInt
  split
  · rename_i h; rw [range_iff] at h; rw [makeInt_range h]; rfl
  · rfl

theorem makeLongInt_intValue (x : Int) : intValue (makeLongInt x) = x := by
  unfold makeLongInt
  split
  · rename_i h; rw [range_iff] at h; rw [makeInt_range h]; rfl
  · rfl

theorem mpzGetSi_range {z : Int} (h : -(2 ^ 61) ≤ z ∧ z < 2 ^ 61) : mpzGetSi z = z := by
  unfold mpzGetSi; rw [if_pos]; omega

theorem maybeDemote_big (z : Int) : maybeDemote (.big z) = makeLongInt z := by
  unfold maybeDemote makeLongInt
  have : (z ≤ maxInt ∧ z ≥ minInt) ↔ (minInt ≤ z ∧ z ≤ maxInt) := ⟨fun h => ⟨h.2, h.1⟩, fun h => ⟨h.2, h.1⟩⟩
  simp only [this]
  split
  · rename_i h; rw [range_iff] at h; rw [mpzGetSi_range h]
  · rfl

theorem maybeDemote_rat_one {q : Rat} (h : q.den = 1) : maybeDemote (.rat q) = makeLongInt q.num := by
  rw [← maybeDemote_big]; simp only [maybeDemote, if_pos h]

theorem maybeDemote_rat_ne {q : Rat} (h : q.den ≠ 1) : maybeDemote (.rat q) = .rat q := by
  simp only [maybeDemote, if_neg h]

theorem maybeDemote_rat_value (q : Rat) : value (maybeDemote (.rat q)) = q := by
  by_cases h : q.den = 1
  · rw [maybeDemote_rat_one h, makeLongInt_value]; exact (Rat.den_eq_one_iff q).1 h
  · rw [maybeDemote_rat_ne h]; rfl

theorem maybeDemote_rat_canonical (q : Rat) : Canonical (maybeDemote (.rat q)) := by
  by_cases h : q.den = 1
  · rw [maybeDemote_rat_one h]; exact makeLongInt_canonical _
  · rw [maybeDemote_rat_ne h]; exact h

theorem isExactly_long (x : Int) : IsExactly (.ok (makeLongInt x)) x :=
  ⟨_, rfl, makeLongInt_value x, makeLongInt_canonical x⟩

theorem isExactly_rat (q : Rat) : IsExactly (.ok (maybeDemote (.rat q))) q :=
  ⟨_, rfl, maybeDemote_rat_value q, maybeDemote_rat_canonical q⟩

theorem add_exact {x y : Num} (hx : WF x) (hy : WF y) : IsExactly (add x y) (value x + value y) := by
  cases x <;> cases y <;>
    simp only [add, promoteDup, typeCode, promoteTo, value, WF, maybeDemote_big] at * <;>
    simp <;>
    first
    | (rw [clong_range (by omega)]; simp only [Res.bind]; rw [← Int.cast_add]; exact isExactly_long _)
    | (rw [← Int.cast_add]; exact isExactly_long _)
    | exact isExactly_rat _

theorem sub_exact {x y : Num} (hx : WF x) (hy : WF y) : IsExactly (sub x y) (value x - value y) := by
  cases x <;> cases y <;>
    simp only [sub, promoteDup, typeCode, promoteTo, value, WF, maybeDemote_big] at * <;>
    simp <;>
    first
    | (rw [clong_range (by omega)]; simp only [Res.bind]; rw [← Int.cast_sub]; exact isExactly_long _)
    | (rw [← Int.cast_sub]; exact isExactly_long _)
    | exact isExactly_rat _

theorem mul_exact_or_ub {x y : Num} :
    (∃ a b, x = .fix a ∧ y = .fix b ∧ ¬ (-(2 ^ 63) ≤ a * b ∧ a * b < 2 ^ 63) ∧ mul x y = .ub) ∨
      IsExactly (mul x y) (value x * value y) := by
  cases x with
  | fix a =>
    cases y with
    | fix b =>
      by_cases h : (-(2 ^ 63) ≤ a * b ∧ a * b < 2 ^ 63)
      · right
        simp only [mul, promoteDup, typeCode, value, gt_iff_lt, lt_irrefl, if_false]
        rw [clong_range h, ← Int.cast_mul]
        exact isExactly_long _
      · left
        refine ⟨a, b, rfl, rfl, h, ?_⟩
        simp only [mul, promoteDup, typeCode, gt_iff_lt, lt_irrefl, if_false, clong, if_neg h, Res.bind]
    | big b =>
      right
      simp only [mul, promoteDup, typeCode, promoteTo, value, maybeDemote_big]
      simp
      rw [← Int.cast_mul]; exact isExactly_long _
    | rat b =>
      right
      simp only [mul, promoteDup, typeCode, promoteTo, value]
      simp
      exact isExactly_rat _
  | big a =>
    right
    cases y <;>
      simp only [mul, promoteDup, typeCode, promoteTo, value, maybeDemote_big] <;> simp <;>
      first
      | (rw [← Int.cast_mul]; exact isExactly_long _)
      | exact isExactly_rat _
  | rat a =>
    right
    cases y <;>
      simp only [mul, promoteDup, typeCode, promoteTo, value] <;> simp <;>
      exact isExactly_rat _

end Rep.Number
