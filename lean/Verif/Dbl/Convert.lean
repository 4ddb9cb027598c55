import Verif.Dbl.Compare
import Verif.Num.Lemmas
import Mathlib.Data.Nat.Prime.Basic
import Mathlib.Tactic.Tauto

/-
C70: conversion between exact and inexact numbers, numerator and denominator.
-/

namespace Rep.Dbl

open Spec
open Rep.Number (Num Res makeLongInt maybeDemote)

/-! ### exact->inexact -/

/-- C70.  The result of `exact->inexact` is inexact, and there is no double between the number and its result (an exact
number which is a double is not changed).
Missing: it is not always the nearest double (`C70_nearest_violated`) nor is order kept (`C70_mono_violated`). -/
theorem C70_inexact_partial (x : Number) (hx : Valid x) {p : E} (hp : place x = some p) :
    exact (exactToInexact x) = false ∧ Valid (exactToInexact x) ∧ ∃ d, place (exactToInexact x) = some d ∧
      (∀ b : ℚ, Double b → (p ≤ E.of b → d ≤ E.of b) ∧ (E.of b ≤ p → E.of b ≤ d)) ∧
      (∀ b : ℚ, Double b → p = E.of b → d = p) := by
  have key : exactToInexact x = .fl (getFloat x) := by cases x <;> rfl
  obtain ⟨ok, d, hd, m⟩ := getFloat_spec x hx hp
  have hv : Valid (.fl (getFloat x)) := by
    revert ok
    cases getFloat x <;> exact id
  have hpl : place (.fl (getFloat x)) = some d := by
    rw [← hd]
    cases getFloat x with
    | nan => rfl
    | fin q => rfl
    | inf s => cases s <;> rfl
  rw [key]
  refine ⟨rfl, hv, d, hpl, fun b hb => m (.fin b) hb _ rfl, fun b hb e => ?_⟩
  obtain ⟨h1, h2⟩ := m (.fin b) hb _ rfl
  rw [e]
  exact le_antisymm (h1 (le_of_eq e)) (h2 (le_of_eq e.symm))

/-- The nearest double: none is nearer. -/
theorem rn_nearest (v : ℚ) {b : ℚ} (hb : Double b) : |v - rn v| ≤ |v - b| := by
  have hgrid : ∀ g, Grid (expo v) g → |v - rn v| ≤ |v - g| := by
    rintro _ ⟨k, rfl⟩
    have hu := ulp_pos v
    by_cases hk : k = nearest (v / ulp v)
    · rw [hk]; exact le_rfl
    have hn := (nearest_spec (v / ulp v)).1
    have e1 : v - rn v = (v / ulp v - nearest (v / ulp v)) * ulp v := by
      unfold rn; field_simp
    have e2 : v - k * 2 ^ expo v = (v / ulp v - k) * ulp v := by
      show v - k * ulp v = _
      field_simp
    rw [e1, e2, abs_mul, abs_mul]
    refine mul_le_mul_of_nonneg_right ?_ (abs_nonneg _)
    have h1 : (1 : ℚ) ≤ |(k : ℚ) - nearest (v / ulp v)| := by
      have : (1 : Int) ≤ |k - nearest (v / ulp v)| := Int.one_le_abs (by omega)
      exact_mod_cast this
    have h2 : |(k : ℚ) - nearest (v / ulp v)| ≤ |v / ulp v - nearest (v / ulp v)| + |v / ulp v - k| := by
      have := abs_sub_le (k : ℚ) (v / ulp v) (nearest (v / ulp v))
      rw [abs_sub_comm (k : ℚ) (v / ulp v)] at this
      linarith
    linarith
  by_cases h0 : v = 0
  · subst h0
    have : rn 0 = 0 := (rn_rounded 0).zero
    rw [this]; simp
  rcases grid_or (v := v) hb with g | ⟨he, hlt⟩
  · exact hgrid b g
  · have hl := log_le h0
    rw [abs_lt] at hlt
    rcases lt_or_gt_of_ne h0 with hn | hp
    · rw [abs_of_neg hn] at hl hlt he
      refine (hgrid _ ((Grid.le (f := expo v) (by rw [he]; omega) (Grid.pow (Int.log 2 (-v)))).neg)).trans ?_
      rw [abs_of_nonpos (by linarith), abs_of_nonpos (by linarith [hlt.1])]
      linarith [hlt.1]
    · rw [abs_of_pos hp] at hl hlt he
      refine (hgrid _ (Grid.le (f := expo v) (by rw [he]; omega) (Grid.pow (Int.log 2 v)))).trans ?_
      rw [abs_of_nonneg (by linarith), abs_of_nonneg (by linarith [hlt.2])]
      linarith [hlt.2]

/-- C70.  Fixnums are converted to the nearest double. -/
theorem C70_fixnum (w : Int) (hw : Valid (.ex (.fix w))) :
    ∃ d, exactToInexact (.ex (.fix w)) = .fl (.fin d) ∧ Double d ∧ ∀ b, Double b → |(w : ℚ) - d| ≤ |(w : ℚ) - b| := by
  have habs : |(w : ℚ)| ≤ 2 ^ 62 := by
    have h1 : -(2 ^ 62) ≤ w := by have := hw.1; unfold Rep.Number.minInt at this; omega
    have h2 : w ≤ 2 ^ 62 := by have := hw.2; unfold Rep.Number.maxInt at this; omega
    rw [abs_le]
    exact ⟨by exact_mod_cast h1, by exact_mod_cast h2⟩
  have hlt : |rn (w : ℚ)| < 2 ^ 1024 := by
    have hd : Double ((2 : ℚ) ^ 62) := ⟨1, 62, by norm_num, by norm_num, by norm_num, by norm_num⟩
    have hd' : Double (-(2 : ℚ) ^ 62) := ⟨-1, 62, by norm_num, by norm_num, by norm_num, by norm_num⟩
    rw [abs_le] at habs
    have h1 := (rn_rounded (w : ℚ)).le_double hd habs.2
    have h2 := (rn_rounded (w : ℚ)).double_le hd' habs.1
    have : |rn (w : ℚ)| ≤ 2 ^ 62 := abs_le.2 ⟨h2, h1⟩
    exact lt_of_le_of_lt this (pow_lt_pow_right₀ (by norm_num) (by norm_num))
  exact ⟨rn w, congrArg Number.fl (rne_eq hlt), double_of_grid (rn_rounded _).self_grid hlt, fun b hb => rn_nearest _ hb⟩

example : Valid (.ex (.fix (2 ^ 53 + 3))) := by constructor <;> norm_num [Rep.Number.minInt, Rep.Number.maxInt]

theorem big_ulp {v : ℚ} (h1 : 2 ^ 53 ≤ v) (h2 : v < 2 ^ 54) : ulp v = 2 := by
  have habs : |v| = v := abs_of_pos (by linarith [show (0 : ℚ) < 2 ^ 53 by norm_num])
  unfold ulp expo
  rw [log_eq (k := 53) (by rw [habs]; exact_mod_cast h1) (by rw [habs]; exact_mod_cast h2)]
  norm_num

theorem up_fix : exactToInexact (.ex (.fix (2 ^ 53 + 3))) = .fl (.fin (2 ^ 53 + 4)) := by
  have e : rn ((2 ^ 53 + 3 : Int) : ℚ) = 2 ^ 53 + 4 := by
    unfold rn
    rw [big_ulp (by norm_num) (by norm_num)]
    have : nearest (((2 ^ 53 + 3 : Int) : ℚ) / 2) = 2 ^ 52 + 2 := by
      refine Nearest.unique (nearest_spec _) ?_
      unfold Nearest
      norm_num [abs_of_neg]
    rw [this]; norm_num
  show Number.fl (rne ((2 ^ 53 + 3 : Int) : ℚ)) = _
  rw [rne_eq (by rw [e, abs_of_pos (by norm_num)]; exact lt_of_le_of_lt (b := 2 ^ 54) (by norm_num) (pow_lt_pow_right₀ (by norm_num) (by norm_num))), e]

theorem down_rat : exactToInexact (.ex (.rat (2 ^ 53 + 7 / 2))) = .fl (.fin (2 ^ 53 + 2)) := by
  have e : rz (2 ^ 53 + 7 / 2 : ℚ) = 2 ^ 53 + 2 := by
    unfold rz
    rw [big_ulp (by norm_num) (by norm_num)]
    have : trunc ((2 ^ 53 + 7 / 2 : ℚ) / 2) = 2 ^ 52 + 1 := by
      unfold trunc
      rw [if_pos (by norm_num), Int.floor_eq_iff]
      norm_num
    rw [this]; norm_num
  show Number.fl (rtz (2 ^ 53 + 7 / 2 : ℚ)) = _
  rw [rtz_eq (by rw [e, abs_of_pos (by norm_num)]; exact lt_of_le_of_lt (b := 2 ^ 54) (by norm_num) (pow_lt_pow_right₀ (by norm_num) (by norm_num))), e]

/-- The double 2^53 + 4 is nearer to 2^53 + 7/2 than the result. -/
theorem C70_nearest_violated : ∃ d, exactToInexact (.ex (.rat (2 ^ 53 + 7 / 2))) = .fl (.fin d) ∧
    ∃ b, Double b ∧ |(2 ^ 53 + 7 / 2 : ℚ) - b| < |(2 ^ 53 + 7 / 2 : ℚ) - d| :=
  ⟨_, down_rat, 2 ^ 53 + 4, ⟨2 ^ 51 + 1, 2, by norm_num, by norm_num, by norm_num, by norm_num⟩, by
    rw [abs_of_neg (by norm_num), abs_of_pos (by norm_num)]; norm_num⟩

/-- 2^53 + 3 is less than 2^53 + 7/2, but its conversion is greater. -/
theorem C70_mono_violated : ∃ a b, exactToInexact (.ex (.fix (2 ^ 53 + 3))) = .fl (.fin a) ∧
    exactToInexact (.ex (.rat (2 ^ 53 + 7 / 2))) = .fl (.fin b) ∧ b < a :=
  ⟨_, _, up_fix, down_rat, by norm_num⟩

/-! ### The loop -/

theorem pack_pow (t : Int) : pack (2 ^ t) = if t < 1024 then .fin (2 ^ t) else .inf false := by
  unfold pack
  have e : (2 : ℚ) ^ 1024 = 2 ^ (1024 : Int) := (zpow_natCast _ _).symm
  rw [abs_of_pos (two_pos t), e]
  by_cases h : t < 1024
  · rw [if_pos h, if_pos (zpow_lt_zpow_right₀ (by norm_num) h)]
  · rw [if_neg h, if_neg (not_lt.2 (zpow_le_zpow_right₀ (by norm_num) (by omega)))]
    simp [(two_pos t).le]

theorem pack_next (t : Int) : (match pack (2 ^ t) with | .fin y => pack (y * 2) | y => y) = pack (2 ^ (t + 1)) := by
  rw [pack_pow t, pack_pow (t + 1)]
  by_cases h : t < 1024
  · rw [if_pos h]
    show pack (2 ^ t * 2) = _
    rw [← zpow_add_one₀ two_ne, pack_pow]
  · rw [if_neg h, if_neg (by omega)]

/-- The fraction is greater than `DBL_EPSILON`. -/
def Open (x : ℚ) : Prop := x - ⌊x⌋ > epsilon

instance (x : ℚ) : Decidable (Open x) := inferInstanceAs (Decidable (_ > _))

theorem not_open_int (n : Int) : ¬Open n := by
  unfold Open epsilon
  simp

theorem ratLoop_open {fuel : Nat} {x : ℚ} {t : Int} (h : Open x) : ratLoop (fuel + 1) x (pack (2 ^ t)) = ratLoop fuel (x * 2) (pack (2 ^ (t + 1))) := by
  conv_lhs => unfold ratLoop
  rw [if_pos (show x - ⌊x⌋ > epsilon from h)]
  exact congrArg (ratLoop fuel (x * 2)) (pack_next t)

theorem ratLoop_spec : ∀ (fuel g : Nat) (x : ℚ) (t : Int), Grid (-g) x → g < fuel →
    ∃ k : Nat, k ≤ g ∧ ratLoop fuel x (pack (2 ^ t)) = some (x * 2 ^ k, pack (2 ^ (t + k))) ∧
      (∀ i < k, Open (x * 2 ^ i)) ∧ ¬Open (x * 2 ^ k) := by
  intro fuel
  induction fuel with
  | zero => intro g x t _ h; omega
  | succ fuel ih =>
    intro g x t hg hf
    by_cases ho : Open x
    · obtain ⟨g, rfl⟩ : ∃ g', g = g' + 1 := by
        refine ⟨g - 1, ?_⟩
        rcases Nat.eq_zero_or_pos g with h0 | h0
        · subst h0
          obtain ⟨n, rfl⟩ := hg
          exact absurd ho (by simpa using not_open_int n)
        · omega
      have hg' : Grid (-(g : Int)) (x * 2) := by
        obtain ⟨n, rfl⟩ := hg
        refine ⟨n, ?_⟩
        rw [mul_assoc, ← zpow_add_one₀ two_ne]
        congr 2
        push_cast
        ring
      obtain ⟨k, hk, e, h1, h2⟩ := ih g (x * 2) (t + 1) hg' (by omega)
      have hx : ∀ i : Nat, x * 2 * 2 ^ i = x * 2 ^ (i + 1) := fun i => by ring
      refine ⟨k + 1, by omega, ?_, ?_, ?_⟩
      · rw [ratLoop_open ho, e, hx]
        congr 3
        push_cast
        rw [add_assoc, add_comm (1 : Int)]
      · intro i hi
        cases i with
        | zero => simpa using ho
        | succ i => rw [← hx]; exact h1 i (by omega)
      · rw [← hx]; exact h2
    · refine ⟨0, by omega, ?_, fun i hi => by omega, by simpa using ho⟩
      unfold ratLoop
      rw [if_neg (show ¬x - ⌊x⌋ > epsilon from ho)]
      simp

theorem expo_le_log {q : ℚ} : Int.log 2 |q| - 52 ≤ expo q := le_max_left _ _

/-- What `rationalize` does: the number of doublings. -/
theorem rationalize_spec {q : ℚ} (hq : Double q) (h0 : q ≠ 0) :
    ∃ k : Nat, k ≤ 53 ∧ rationalize q = some (q * 2 ^ ((k : Int) - (Int.log 2 |q| + 1)), pack (2 ^ ((k : Int) - (Int.log 2 |q| + 1)))) ∧
      (∀ i : Nat, i < k → Open (q * 2 ^ ((i : Int) - (Int.log 2 |q| + 1)))) ∧ ¬Open (q * 2 ^ ((k : Int) - (Int.log 2 |q| + 1))) := by
  have hx : ∀ i : Nat, q / 2 ^ (Int.log 2 |q| + 1) * 2 ^ i = q * 2 ^ ((i : Int) - (Int.log 2 |q| + 1)) := by
    intro i
    rw [zpow_sub₀ two_ne, zpow_natCast]
    ring
  have hg : Grid (-(53 : Nat)) (q / 2 ^ (Int.log 2 |q| + 1)) := by
    obtain ⟨n, hn⟩ := Grid.le (f := Int.log 2 |q| - 52) expo_le_log hq.grid
    refine ⟨n, ?_⟩
    generalize Int.log 2 |q| = l at hn
    rw [hn, div_eq_mul_inv, ← zpow_neg, mul_assoc, ← zpow_add₀ two_ne]
    congr 2
    push_cast
    ring
  obtain ⟨k, hk, e, h1, h2⟩ := ratLoop_spec 64 53 _ (-(Int.log 2 |q| + 1)) hg (by norm_num)
  refine ⟨k, hk, ?_, fun i hi => hx i ▸ h1 i hi, hx k ▸ h2⟩
  unfold rationalize frexp
  rw [if_neg h0]
  show ratLoop 64 (q / 2 ^ (Int.log 2 |q| + 1)) (pack (2 ^ (-(Int.log 2 |q| + 1)))) = _
  rw [e, hx]
  congr 3
  rw [neg_add_eq_sub]

theorem rationalize_zero : rationalize 0 = some (0, .fin 1) := by
  have h : ratLoop 64 0 (pack (2 ^ (-(0 : Int)))) = some (0, pack (2 ^ (-(0 : Int)))) := by
    unfold ratLoop
    rw [if_neg (by norm_num [epsilon])]
  show ratLoop 64 0 (pack (2 ^ (-(0 : Int)))) = _
  rw [h, pack_pow]
  simp

/-! ### inexact->exact -/

theorem inexact_trunc {q : ℚ} (hq : Double q) : inexactToExact (.fl (.fin q)) = .ok (.ex (maybeDemote (.big (trunc q)))) := by
  by_cases h0 : q = 0
  · subst h0
    unfold inexactToExact
    simp only [rationalize_zero]
    have : rne ((0 : ℚ) / 1) = .fin 0 := by
      have := hq.rne
      simpa using this
    simp only [this]
  · obtain ⟨k, hk, e, -, -⟩ := rationalize_spec hq h0
    unfold inexactToExact
    simp only [e, pack_pow]
    by_cases hlt : (k : Int) - (Int.log 2 |q| + 1) < 1024
    · simp only [if_pos hlt]
      have : q * 2 ^ ((k : Int) - (Int.log 2 |q| + 1)) / 2 ^ ((k : Int) - (Int.log 2 |q| + 1)) = q := by
        rw [mul_div_assoc, div_self (two_pos _).ne', mul_one]
      simp only [this, hq.rne]
    · simp only [if_neg hlt]
      have hb : |q| < 1 := by
        refine lt_of_lt_of_le (lt_log q) ?_
        have : (2 : ℚ) ^ (Int.log 2 |q| + 1) ≤ 2 ^ (0 : Int) := zpow_le_zpow_right₀ (by norm_num) (by omega)
        simpa using this
      have : trunc q = 0 := by
        rw [abs_lt] at hb
        unfold trunc
        split
        · rw [Int.floor_eq_zero_iff]; exact ⟨by assumption, hb.2⟩
        · rw [Int.ceil_eq_zero_iff]; exact ⟨hb.1, by linarith⟩
      rw [this]

theorem value_demote (z : Int) : value (.ex (maybeDemote (.big z))) = some (z : ℚ) := by
  rw [Rep.Number.maybeDemote_big]
  unfold makeLongInt
  split
  · rename_i h
    rw [Rep.Number.range_iff] at h
    rw [Rep.Number.makeInt_range h]
    rfl
  · rfl

/-- C70.  `inexact->exact` gives an exact number of the same value, for every double which is an integer.
Missing: fractions, whose fraction part is dropped (`C70_fraction_violated`); infinite numbers and `nan` end the process
(`C70_infinite_violated`). -/
theorem C70_exact_partial (n : Int) (h : Double (n : ℚ)) :
    ∃ r, inexactToExact (.fl (.fin n)) = .ok r ∧ exact r = true ∧ value r = some (n : ℚ) := by
  refine ⟨_, inexact_trunc h, rfl, ?_⟩
  rw [trunc_int]
  exact value_demote n

/-- C70.  In every case, the result is the nearest integer towards zero. -/
theorem C70_towards (q : ℚ) (h : Double q) :
    ∃ r, ∃ n : Int, inexactToExact (.fl (.fin q)) = .ok r ∧ exact r = true ∧ value r = some (n : ℚ) ∧ |(n : ℚ)| ≤ |q| ∧ |q - n| < 1 ∧ 0 ≤ n * q := by
  refine ⟨_, trunc q, inexact_trunc h, rfl, value_demote _, ?_⟩
  unfold trunc
  split
  · rename_i h0
    have h1 := Int.floor_le q
    have h2 := Int.lt_floor_add_one q
    have h3 : (0 : ℚ) ≤ ⌊q⌋ := by exact_mod_cast Int.floor_nonneg.2 h0
    rw [abs_of_nonneg h3, abs_of_nonneg h0, abs_of_nonneg (by linarith)]
    exact ⟨h1, by linarith, mul_nonneg h3 h0⟩
  · rename_i h0
    have h0 := not_le.1 h0
    have h1 := Int.le_ceil q
    have h2 := Int.ceil_lt_add_one q
    have h3 : (⌈q⌉ : ℚ) ≤ 0 := by exact_mod_cast Int.ceil_le.2 (by simpa using h0.le)
    rw [abs_of_nonpos h3, abs_of_neg h0, abs_of_nonpos (by linarith)]
    exact ⟨by linarith, by linarith, mul_nonneg_of_nonpos_of_nonpos h3 h0.le⟩

/-- C70.  Integers that a double holds, all up to 2^53 among them, survive the way there and back. -/
theorem C70_round_trip (x : Number) (z : Int) (hx : Valid x) (hv : value x = some (z : ℚ)) (h : Double (z : ℚ)) :
    ∃ r, inexactToExact (exactToInexact x) = .ok r ∧ exact r = true ∧ value r = some (z : ℚ) := by
  have key : exactToInexact x = .fl (.fin z) := by
    match x with
    | .ex (.fix w) => cases hv; exact congrArg Number.fl h.rne
    | .ex (.big w) =>
      have : w = z := by exact_mod_cast Option.some.inj hv
      subst this; exact congrArg Number.fl h.rtz
    | .ex (.rat q) => cases hv; exact congrArg Number.fl h.rtz
    | .fl (.fin q) => cases hv; rfl
    | .fl .nan => exact nomatch hv
    | .fl (.inf s) => exact nomatch hv
  rw [key]
  exact C70_exact_partial z h

example : Double ((-(2 ^ 53) : Int) : ℚ) ∧ Double ((2 ^ 53 - 1 : Int) : ℚ) ∧ Double ((3 * 2 ^ 70 : Int) : ℚ) :=
  ⟨⟨-1, 53, by norm_num, by norm_num, by norm_num, by norm_num⟩, ⟨2 ^ 53 - 1, 0, by norm_num, by norm_num, by norm_num, by norm_num⟩,
    ⟨3, 70, by norm_num, by norm_num, by norm_num, by norm_num⟩⟩

theorem double_half : Double (1 / 2) := ⟨1, -1, by norm_num, by norm_num, by norm_num, by norm_num⟩

/-- One half becomes zero. -/
theorem C70_fraction_violated : inexactToExact (.fl (.fin (1 / 2))) = .ok (.ex (.fix 0)) := by
  rw [inexact_trunc double_half]
  have : trunc (1 / 2) = 0 := by unfold trunc; rw [if_pos (by norm_num), Int.floor_eq_zero_iff]; norm_num
  rw [this]
  decide

theorem C70_infinite_violated : inexactToExact (.fl (.inf false)) = .ub ∧ inexactToExact (.fl .nan) = .ub := ⟨rfl, rfl⟩

/-! ### numerator and denominator -/

/-- C70.  The numerator and denominator of an exact rational are its own, in lowest terms, and exact. -/
theorem C70_parts_rational (q : ℚ) : ∃ n d, numerator (.ex (.rat q)) = .ok n ∧ denominator (.ex (.rat q)) = .ok d ∧
    exact n = true ∧ exact d = true ∧ value n = some (q.num : ℚ) ∧ value d = some (q.den : ℚ) :=
  ⟨_, _, rfl, rfl, rfl, rfl, value_demote _, by rw [value_demote]; simp⟩

theorem log_pow_mul {n : Int} (hn : n ≠ 0) (j : Nat) : Int.log 2 |(n : ℚ) / 2 ^ j| = Int.log 2 |(n : ℚ)| - j := by
  have hn' : (n : ℚ) ≠ 0 := by exact_mod_cast hn
  have h1 := log_le hn'
  have h2 := lt_log (n : ℚ)
  have e : |(n : ℚ) / 2 ^ j| = |(n : ℚ)| * 2 ^ (-(j : Int)) := by
    rw [abs_div, abs_of_pos (show (0 : ℚ) < 2 ^ j by positivity), zpow_neg, zpow_natCast]
    ring
  have hp := two_pos (-(j : Int))
  refine log_eq ?_ ?_
  · rw [e, sub_eq_add_neg, zpow_add₀ two_ne]
    exact mul_le_mul_of_nonneg_right h1 hp.le
  · rw [e, show Int.log 2 |(n : ℚ)| - (j : Int) + 1 = Int.log 2 |(n : ℚ)| + 1 + -(j : Int) by ring, zpow_add₀ two_ne]
    exact mul_lt_mul_of_pos_right h2 hp

/-- The fraction of an odd number over a power of two. -/
theorem open_odd {n : Int} {i : Nat} (ho : n % 2 = 1) (hb : |n| < 2 ^ 53) (hi : 1 ≤ i) (hl : (2 : ℚ) ^ i ≤ 2 * |(n : ℚ)|)
    (hg : n % 2 ^ 52 = 1 → n = 1) : Open ((n : ℚ) / 2 ^ i) := by
  have hl' : 2 ^ i ≤ 2 * |n| := by exact_mod_cast hl
  have hi53 : i ≤ 53 := by
    by_contra hc
    have : (2 : Int) ^ 54 ≤ 2 ^ i := pow_le_pow_right₀ (by norm_num) (by omega)
    omega
  have hfl : ⌊(n : ℚ) / 2 ^ i⌋ = n / 2 ^ i := by
    have := Rat.floor_intCast_div_natCast n (2 ^ i)
    push_cast at this
    exact this
  have hfr : (n : ℚ) / 2 ^ i - ((n / 2 ^ i : Int) : ℚ) = ((n % 2 ^ i : Int) : ℚ) / 2 ^ i := by
    have h := Int.mul_ediv_add_emod n (2 ^ i)
    have h' : (2 : ℚ) ^ i * ((n / 2 ^ i : Int) : ℚ) + ((n % 2 ^ i : Int) : ℚ) = n := by exact_mod_cast h
    field_simp
    linarith
  unfold Open epsilon
  rw [hfl, hfr, gt_iff_lt, div_lt_div_iff₀ (by positivity) (by positivity)]
  have hodd : (n % 2 ^ i) % 2 = 1 := by
    rw [Int.emod_emod_of_dvd _ (dvd_pow_self 2 (by omega))]; exact ho
  have hnn : 0 ≤ n % 2 ^ i := Int.emod_nonneg _ (by positivity)
  have hgoal : (2 : Int) ^ i < (n % 2 ^ i) * 2 ^ 52 := by
    rcases Nat.lt_or_ge i 52 with h | h
    · have h1 : (2 : Int) ^ i < 2 ^ 52 := pow_lt_pow_right₀ (by norm_num) h
      have h2 : 1 ≤ n % 2 ^ i := by omega
      nlinarith
    · obtain rfl | rfl : i = 52 ∨ i = 53 := by omega
      · have : n % 2 ^ 52 ≠ 1 := by
          intro h1
          have := hg h1
          subst this
          norm_num at hl'
        omega
      · have : n % 2 ^ 53 ≠ 1 := by
          intro h1
          have := hg (by omega)
          subst this
          norm_num at hl'
        omega
  have : (2 : ℚ) ^ i < ((n % 2 ^ i : Int) : ℚ) * 2 ^ 52 := by exact_mod_cast hgoal
  linarith

/-- An odd number over a power of two is taken apart. -/
theorem rationalize_odd {n : Int} {j : Nat} (hq : Double ((n : ℚ) / 2 ^ j)) (ho : n % 2 = 1) (hg : n % 2 ^ 52 = 1 → n = 1) :
    rationalize ((n : ℚ) / 2 ^ j) = some ((n : ℚ), pack (2 ^ (j : Int))) := by
  have hn : n ≠ 0 := by omega
  have hn' : (n : ℚ) ≠ 0 := by exact_mod_cast hn
  have hq0 : (n : ℚ) / 2 ^ j ≠ 0 := div_ne_zero hn' (by positivity)
  have hb : |n| < 2 ^ 53 := by
    obtain ⟨m, e, hm, -, -, he⟩ := hq
    -- n = m * 2^(e + j)
    have hme : (n : ℚ) = m * 2 ^ (e + j) := by
      rw [zpow_add₀ two_ne, zpow_natCast, ← mul_assoc, ← he]
      field_simp
    rcases le_or_gt (e + j) 0 with h | h
    · have : |(n : ℚ)| ≤ |(m : ℚ)| := by
        rw [hme, abs_mul, abs_of_pos (two_pos _)]
        have : (2 : ℚ) ^ (e + j) ≤ 2 ^ (0 : Int) := zpow_le_zpow_right₀ (by norm_num) h
        have := mul_le_mul_of_nonneg_left this (abs_nonneg (m : ℚ))
        simpa using this
      have : |n| ≤ |m| := by exact_mod_cast this
      omega
    · exfalso
      obtain ⟨k, hk⟩ : ∃ k : Nat, e + j = k + 1 := ⟨(e + j - 1).toNat, by omega⟩
      rw [hk] at hme
      have : n = m * 2 ^ (k + 1) := by
        have e2 : ((k : Int) + 1) = ((k + 1 : Nat) : Int) := by push_cast; rfl
        rw [e2, zpow_natCast] at hme
        exact_mod_cast hme
      rw [pow_succ, ← mul_assoc] at this
      omega
  obtain ⟨k, hk, e, h1, h2⟩ := rationalize_spec hq hq0
  rw [log_pow_mul hn] at e h1 h2
  have hlog0 : 0 ≤ Int.log 2 |(n : ℚ)| := by
    refine (Int.zpow_le_iff_le_log (b := 2) (by norm_num) (abs_pos.2 hn')).1 ?_
    have : (1 : Int) ≤ |n| := Int.one_le_abs hn
    rw [zpow_zero]
    exact_mod_cast this
  obtain ⟨a, ha⟩ : ∃ a : Nat, Int.log 2 |(n : ℚ)| = a := ⟨_, (Int.toNat_of_nonneg hlog0).symm⟩
  have hla : (2 : ℚ) ^ a ≤ |(n : ℚ)| := by
    have := log_le hn'
    rw [ha, zpow_natCast] at this
    exact this
  -- the numbers on the way
  have hx : ∀ i : Nat, (n : ℚ) / 2 ^ j * 2 ^ ((i : Int) - (Int.log 2 |(n : ℚ)| - j + 1)) = n * 2 ^ ((i : Int) - (a + 1)) := by
    intro i
    rw [ha, show (i : Int) - ((a : Int) - j + 1) = (i - (a + 1)) + j by ring, zpow_add₀ two_ne, zpow_natCast]
    field_simp
  have hka : k = a + 1 := by
    rcases lt_trichotomy k (a + 1) with h | h | h
    · exfalso
      refine h2 ?_
      rw [hx]
      have e3 : (n : ℚ) * 2 ^ ((k : Int) - (a + 1)) = n / 2 ^ (a + 1 - k) := by
        rw [show (k : Int) - (a + 1) = -((a + 1 - k : Nat) : Int) by omega, zpow_neg, zpow_natCast]
        rfl
      rw [e3]
      refine open_odd ho hb (by omega) ?_ hg
      have : (2 : ℚ) ^ (a + 1 - k) ≤ 2 ^ (a + 1) := pow_le_pow_right₀ (by norm_num) (by omega)
      rw [pow_succ] at this
      linarith
    · exact h
    · exfalso
      have := h1 (a + 1) h
      rw [hx] at this
      simp at this
      exact not_open_int n this
  rw [e, hx, hka, ha]
  congr 2
  · simp
  · congr 2; push_cast; ring

/-- C70.  The numerator and denominator of a double are those of its value, in lowest terms.
Missing: even integers other than 0 (`C70_even_violated`), numerators 2^52 + 1, 1 - 2^52 and 1 - 2^53
(`C70_epsilon_violated`), denominators above 2^1023, and exact integers (`C70_integer_violated`). -/
theorem C70_parts_partial (q : ℚ) (hq : Double q) (ho : q.num % 2 = 1 ∨ q = 0) (hg : q.num % 2 ^ 52 = 1 → q.num = 1)
    (hd : Double (q.den : ℚ)) :
    numerator (.fl (.fin q)) = .ok (.fl (.fin q.num)) ∧ denominator (.fl (.fin q)) = .ok (.fl (.fin q.den)) := by
  by_cases h0 : q = 0
  · subst h0
    unfold numerator denominator
    simp only [rationalize_zero]
    simp
  · have ho : q.num % 2 = 1 := by tauto
    -- the denominator is a power of two
    obtain ⟨j, hj⟩ : ∃ j : Nat, q.den = 2 ^ j := by
      obtain ⟨m, e, -, -, -, he⟩ := hq
      have hdvd : q.den ∣ 2 ^ (-e).toNat := by
        have : ((q.den : Int)) ∣ 2 ^ (-e).toNat := by
          have h : q = Rat.divInt m (2 ^ (-e).toNat) ∨ ∃ z : Int, q = z := by
            rcases le_or_gt e 0 with h | h
            · left
              rw [he, Rat.divInt_eq_div]
              push_cast
              conv_lhs => rw [show e = -((-e).toNat : Int) by omega, zpow_neg, zpow_natCast]
              rfl
            · right
              refine ⟨m * 2 ^ e.toNat, ?_⟩
              rw [he]
              push_cast
              conv_lhs => rw [show e = (e.toNat : Int) by omega, zpow_natCast]
          rcases h with h | ⟨z, h⟩
          · rw [h]
            exact Rat.den_dvd _ _
          · rw [h]; simp
        exact_mod_cast this
      obtain ⟨j, -, hj⟩ := (Nat.dvd_prime_pow Nat.prime_two).1 hdvd
      exact ⟨j, hj⟩
    have hqj : q = (q.num : ℚ) / 2 ^ j := by
      conv_lhs => rw [← Rat.num_div_den q]
      rw [hj]; push_cast; rfl
    have hp : pack (2 ^ (j : Int)) = .fin (2 ^ j) := by
      have := hd.lt
      rw [hj] at this
      push_cast at this
      rw [zpow_natCast]
      exact if_pos this
    have hr := rationalize_odd (n := q.num) (j := j) (hqj ▸ hq) ho hg
    rw [← hqj, hp] at hr
    unfold numerator denominator
    simp only [hr]
    refine ⟨trivial, ?_⟩
    rw [hj]
    push_cast
    rfl

/-- -5/8 -/
example : Double (-5 / 8) ∧ (-5 / 8 : ℚ).num % 2 = 1 ∧ ((-5 / 8 : ℚ).num % 2 ^ 52 = 1 → (-5 / 8 : ℚ).num = 1) ∧ Double ((-5 / 8 : ℚ).den : ℚ) := by
  have h1 : (-5 / 8 : ℚ).num = -5 := by decide +kernel
  have h2 : (-5 / 8 : ℚ).den = 8 := by decide +kernel
  refine ⟨⟨-5, -3, by norm_num, by norm_num, by norm_num, by norm_num⟩, by rw [h1]; rfl, by rw [h1]; norm_num, ?_⟩
  rw [h2]
  exact ⟨8, 0, by norm_num, by norm_num, by norm_num, by norm_num⟩

theorem ratLoop_stop {fuel : Nat} {x : ℚ} {y : F64} (h : ¬Open x) : ratLoop (fuel + 1) x y = some (x, y) := by
  unfold ratLoop
  rw [if_neg (show ¬x - ⌊x⌋ > epsilon from h)]

/-- The parts of 6.0 are 3 and 1/2. -/
theorem C70_even_violated : numerator (.fl (.fin 6)) = .ok (.fl (.fin 3)) ∧ denominator (.fl (.fin 6)) = .ok (.fl (.fin (1 / 2))) := by
  have hl : Int.log 2 |(6 : ℚ)| = 2 := log_eq (by norm_num) (by norm_num)
  have : rationalize 6 = some (3, .fin (1 / 2)) := by
    unfold rationalize frexp
    rw [if_neg (by norm_num), hl]
    show ratLoop 64 (6 / 2 ^ (2 + 1 : Int)) (pack (2 ^ (-(2 + 1) : Int))) = _
    rw [ratLoop_open, ratLoop_open, ratLoop_stop, pack_pow]
    · norm_num
    · norm_num [Open, epsilon]
    · norm_num [Open, epsilon]
    · norm_num [Open, epsilon]
  unfold numerator denominator
  simp only [this]
  trivial

/-- The numerator of 2^52 + 1.0 is 1 + 2^-52. -/
theorem C70_epsilon_violated : numerator (.fl (.fin (2 ^ 52 + 1))) = .ok (.fl (.fin (1 + 1 / 2 ^ 52))) := by
  have hl : Int.log 2 |(2 ^ 52 + 1 : ℚ)| = 52 := log_eq (by norm_num) (by norm_num)
  have : rationalize (2 ^ 52 + 1) = some (1 + 1 / 2 ^ 52, .fin (2 ^ (-52 : Int))) := by
    unfold rationalize frexp
    rw [if_neg (by norm_num), hl]
    show ratLoop 64 ((2 ^ 52 + 1) / 2 ^ (52 + 1 : Int)) (pack (2 ^ (-(52 + 1) : Int))) = _
    rw [ratLoop_open, ratLoop_stop, pack_pow]
    · norm_num
    · norm_num [Open, epsilon]
    · norm_num [Open, epsilon]
  unfold numerator
  simp only [this]

/-- The numerator of 2^70 is 1; that of 6 reads memory at an address made of it. -/
theorem C70_integer_violated : numerator (.ex (.big (2 ^ 70))) = .ok (.ex (.fix 1)) ∧ numerator (.ex (.fix 6)) = .ub := by
  refine ⟨?_, rfl⟩
  have hd : Double ((2 ^ 70 : Int) : ℚ) := ⟨1, 70, by norm_num, by norm_num, by norm_num, by norm_num⟩
  have hl : Int.log 2 |((2 ^ 70 : Int) : ℚ)| = 70 := log_eq (by norm_num) (by norm_num)
  have : rationalize ((2 ^ 70 : Int) : ℚ) = some (1, .fin (2 ^ (-70 : Int))) := by
    unfold rationalize frexp
    rw [if_neg (by norm_num), hl]
    show ratLoop 64 (((2 ^ 70 : Int) : ℚ) / 2 ^ (70 + 1 : Int)) (pack (2 ^ (-(70 + 1) : Int))) = _
    rw [ratLoop_open, ratLoop_stop, pack_pow]
    · norm_num
    · norm_num [Open, epsilon]
    · norm_num [Open, epsilon]
  unfold numerator
  simp only [hd.rtz, this]
  have h1 : (⌊(1 : ℚ)⌋ : ℚ) = 1 := by simp
  have h2 : trunc 1 = 1 := by simpa using trunc_int 1
  unfold makeFloat
  simp only [h1, h2]
  norm_num
  decide

end Rep.Dbl
