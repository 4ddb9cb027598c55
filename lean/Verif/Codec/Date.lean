/-
Dates (lisp/rep/util/date.jl, `fix-time` in src/misc.c) and property C21.
-/
import Mathlib.Data.Int.Basic
import Mathlib.Logic.Function.Iterate
import Mathlib.Tactic.IntervalCases
import Mathlib.Tactic.LinearCombination

namespace Rep.Date

/-! ### Model

The part of `parse-date` after the text has been split into numbers.  All numbers
are small; `+`, `-`, `*` and `quotient` are exact (C01-C03). -/

/-- date.jl:192-207: `total-days`.  `quotient` truncates towards zero. -/
def totalDays (year month day : Int) : Int :=
  let gMonth := month - 2
  let gYear := year
  let (gMonth, gYear) := if 0 ≥ gMonth then (gMonth + 12, gYear - 1) else (gMonth, gYear)
  (gYear.tdiv 4 - gYear.tdiv 100) + gYear.tdiv 400 + (367 * gMonth).tdiv 12 + day + gYear * 365 + -719499

/-- date.jl:208: `total-seconds`; `timezone` is in minutes. -/
def totalSeconds (hour minute second timezone : Int) : Int :=
  second + 60 * (minute + -timezone + 60 * hour)

/-- src/misc.c:241 `fix-time` with `rep_GET_TIME` (src/rep_lisp.h:930): the time is
held in an `unsigned long`.  The signed multiplication before the conversion is
taken not to overflow (the theorem below bounds the time by 2^62 seconds). -/
def fixTime (t : Int × Int) : Int × Int :=
  let timestamp := (t.1 * 86400 + t.2) % 2 ^ 64
  (timestamp / 86400, timestamp % 86400)

/-- date.jl:211: the element `date-vec-epoch-time` of the vector. -/
def epochTime (year month day hour minute second timezone : Int) : Int × Int :=
  fixTime (totalDays year month day, totalSeconds hour minute second timezone)

/-- date.jl:215-219: the index of the day of the week, Sunday being 0; `%` is
`remainder`. -/
def dayOfWeek (days : Int) : Int :=
  let dow := (days + 4).tmod 7
  if dow < 0 then dow + 7 else dow

/-! ### Specification: the proleptic Gregorian calendar -/

structure Day where
  year : Int
  month : Int
  day : Int
  deriving DecidableEq, Repr

def IsLeap (y : Int) : Prop := y % 4 = 0 ∧ (y % 100 ≠ 0 ∨ y % 400 = 0)

instance (y : Int) : Decidable (IsLeap y) := inferInstanceAs (Decidable (_ ∧ _))

/-- Thirty days hath September... -/
def monthLength (y m : Int) : Int :=
  if m = 2 then (if IsLeap y then 29 else 28)
  else if m = 4 ∨ m = 6 ∨ m = 9 ∨ m = 11 then 30 else 31

/-- The date exists. -/
def Day.Valid (d : Day) : Prop := 1 ≤ d.month ∧ d.month ≤ 12 ∧ 1 ≤ d.day ∧ d.day ≤ monthLength d.year d.month

instance (d : Day) : Decidable d.Valid := inferInstanceAs (Decidable (_ ∧ _))

/-- The day after. -/
def Day.next (d : Day) : Day :=
  if d.day < monthLength d.year d.month then ⟨d.year, d.month, d.day + 1⟩
  else if d.month < 12 then ⟨d.year, d.month + 1, 1⟩
  else ⟨d.year + 1, 1, 1⟩

def epoch : Day := ⟨1970, 1, 1⟩

/-- The code's day number of a date. -/
def Day.number (d : Day) : Int := totalDays d.year d.month d.day

/-! ### Proofs -/

theorem C21_epoch : epoch.number = 0 := by decide

/-- The dates for which the code's truncating division is harmless: from 1 March of
the year 0 on. -/
def Day.Late (d : Day) : Prop := 1 ≤ d.year ∨ (d.year = 0 ∧ 3 ≤ d.month)

theorem totalDays_late (y m d : Int) (h : 1 ≤ y ∨ (y = 0 ∧ 3 ≤ m)) (hm : 1 ≤ m ∧ m ≤ 12) :
    totalDays y m d = (if m ≤ 2 then
      (y - 1) / 4 - (y - 1) / 100 + (y - 1) / 400 + (367 * (m + 10)) / 12 + d + (y - 1) * 365 - 719499
      else y / 4 - y / 100 + y / 400 + (367 * (m - 2)) / 12 + d + y * 365 - 719499) := by
  unfold totalDays
  by_cases h2 : m ≤ 2
  · rw [if_pos h2]
    simp only
    rw [if_pos (by omega)]
    simp only
    rw [Int.tdiv_eq_ediv_of_nonneg (by omega), Int.tdiv_eq_ediv_of_nonneg (by omega),
      Int.tdiv_eq_ediv_of_nonneg (by omega), Int.tdiv_eq_ediv_of_nonneg (by omega)]
    rw [show m - 2 + 12 = m + 10 by omega]
    omega
  · rw [if_neg h2]
    simp only
    rw [if_neg (by omega)]
    simp only
    rw [Int.tdiv_eq_ediv_of_nonneg (by omega), Int.tdiv_eq_ediv_of_nonneg (by omega),
      Int.tdiv_eq_ediv_of_nonneg (by omega), Int.tdiv_eq_ediv_of_nonneg (by omega)]
    omega

theorem feb_mar (y : Int) : y / 4 - y / 100 + y / 400 + y * 365 - 719499 + 30 + 1 =
    (y - 1) / 4 - (y - 1) / 100 + (y - 1) / 400 + 367 + (if IsLeap y then 29 else 28) + (y - 1) * 365 - 719499 + 1 := by
  by_cases h : IsLeap y
  · rw [if_pos h]; unfold IsLeap at h; omega
  · rw [if_neg h]; unfold IsLeap at h; omega

theorem next_valid {d : Day} (h : d.Valid) : d.next.Valid := by
  obtain ⟨h1, h2, h3, h4⟩ := h
  have hl : ∀ y m, (28 : Int) ≤ monthLength y m := by
    intro y m; unfold monthLength; split
    · split <;> omega
    · split <;> omega
  unfold Day.next Day.Valid
  split
  · exact ⟨h1, h2, by simp; omega, by simp; omega⟩
  · split
    · have := hl d.year (d.month + 1)
      exact ⟨by simp; omega, by simp; omega, by simp, by simp; omega⟩
    · have := hl (d.year + 1) 1
      exact ⟨by simp, by simp, by simp, by simp; omega⟩

theorem next_late {d : Day} (h : d.Late) : d.next.Late := by
  unfold Day.next Day.Late at *
  split
  · simpa using h
  · split <;> simp <;> omega

/-- **C21** (partial: from 1 March of the year 0 on): consecutive dates have
consecutive day numbers, whatever the year. -/
theorem C21_consecutive_partial (d : Day) (hv : d.Valid) (hl : d.Late) : d.next.number = d.number + 1 := by
  obtain ⟨h1, h2, h3, h4⟩ := hv
  have hl' := hl
  unfold Day.next
  unfold Day.number
  rw [totalDays_late d.year d.month d.day hl ⟨h1, h2⟩]
  split
  · rw [totalDays_late _ _ _ hl ⟨h1, h2⟩]
    simp only
    split <;> omega
  · rename_i hd
    have hday : d.day = monthLength d.year d.month := by omega
    split
    · rename_i h12
      rw [totalDays_late _ _ _ (by simp [Day.Late] at *; omega) ⟨by simp; omega, by simp; omega⟩]
      simp only
      rw [hday]
      unfold monthLength
      obtain ⟨y, m, dd⟩ := d
      simp only at *
      by_cases hm2 : m = 2
      · subst hm2
        have := feb_mar y
        norm_num
        omega
      · interval_cases m <;> simp at hm2 ⊢ <;> omega
    · rename_i h12
      have : d.month = 12 := by omega
      rw [totalDays_late _ _ _ (by simp [Day.Late] at *; omega) ⟨by simp, by simp⟩]
      simp only
      rw [hday, this]
      simp [monthLength]
      omega

/-- **C21**: the date `n` days after 1 January 1970 has day number `n`. -/
theorem C21_day_count (n : Nat) : (Day.next^[n] epoch).number = n := by
  have : ∀ n, (Day.next^[n] epoch).Valid ∧ (Day.next^[n] epoch).Late ∧ (Day.next^[n] epoch).number = n := by
    intro n
    induction n with
    | zero => exact ⟨by decide, by simp [epoch, Day.Late], C21_epoch⟩
    | succ n ih =>
      rw [Function.iterate_succ_apply']
      obtain ⟨h1, h2, h3⟩ := ih
      refine ⟨next_valid h1, next_late h2, ?_⟩
      rw [C21_consecutive_partial _ h1 h2, h3]; push_cast; rfl
  exact (this n).2.2

theorem prev_exists (d : Day) (hv : d.Valid) (hy : 1970 ≤ d.year) (hne : d ≠ epoch) :
    ∃ p : Day, p.Valid ∧ 1970 ≤ p.year ∧ p.next = d := by
  obtain ⟨y, m, dd⟩ := d
  obtain ⟨h1, h2, h3, h4⟩ := hv
  simp only at *
  have hl : ∀ y m, (28 : Int) ≤ monthLength y m := by
    intro y m; unfold monthLength; split
    · split <;> omega
    · split <;> omega
  by_cases hd : dd = 1
  · subst hd
    by_cases hm : m = 1
    · subst hm
      have hy' : y ≠ 1970 := by rintro rfl; exact hne rfl
      refine ⟨⟨y - 1, 12, 31⟩, ⟨by simp, by simp, by simp, by simp [monthLength]⟩, by simp; omega, ?_⟩
      simp [Day.next, monthLength]
    · refine ⟨⟨y, m - 1, monthLength y (m - 1)⟩, ⟨by simp; omega, by simp; omega, ?_, by simp⟩, hy, ?_⟩
      · have := hl y (m - 1); simp; omega
      · simp [Day.next]; omega
  · refine ⟨⟨y, m, dd - 1⟩, ⟨h1, h2, by simp; omega, by simp; omega⟩, hy, ?_⟩
    simp only [Day.next]
    rw [if_pos (by omega)]
    simp

/-- **C21**: conversely every date from 1970 on is the date that many days after the
epoch, so the code's day number is the Gregorian day count. -/
theorem C21_day_count_onto (d : Day) (hv : d.Valid) (hy : 1970 ≤ d.year) :
    ∃ n : Nat, d = Day.next^[n] epoch ∧ d.number = n := by
  have key : ∀ (k : Nat) (d : Day), d.Valid → 1970 ≤ d.year → (400 * (d.year - 1970) + 32 * d.month + d.day).toNat ≤ k →
      ∃ n : Nat, d = Day.next^[n] epoch := by
    intro k
    induction k with
    | zero =>
      intro d hv hy hk
      obtain ⟨h1, h2, h3, h4⟩ := hv
      omega
    | succ k ih =>
      intro d hv hy hk
      by_cases hne : d = epoch
      · exact ⟨0, hne⟩
      · obtain ⟨p, hp, hpy, hpn⟩ := prev_exists d hv hy hne
        have hlt : 400 * (p.year - 1970) + 32 * p.month + p.day < 400 * (d.year - 1970) + 32 * d.month + d.day := by
          rw [← hpn]
          obtain ⟨h1, h2, h3, h4⟩ := hp
          have : monthLength p.year p.month ≤ 31 := by
            unfold monthLength; split
            · split <;> omega
            · split <;> omega
          unfold Day.next
          split
          · simp
          · split <;> simp <;> omega
        obtain ⟨h1, h2, h3, h4⟩ := hp
        obtain ⟨n, hn⟩ := ih p ⟨h1, h2, h3, h4⟩ hpy (by omega)
        refine ⟨n + 1, ?_⟩
        rw [Function.iterate_succ_apply', ← hn, hpn]
  obtain ⟨n, hn⟩ := key _ d hv hy le_rfl
  refine ⟨n, hn, ?_⟩
  rw [hn]; exact C21_day_count n

/-- **C21**: the day of the week moves by one each day, and 1 January 1970 (day 0) was
a Thursday (4). -/
theorem C21_day_of_week (n : Int) :
    dayOfWeek 0 = 4 ∧ dayOfWeek (n + 1) = (dayOfWeek n + 1) % 7 ∧ 0 ≤ dayOfWeek n ∧ dayOfWeek n < 7 := by
  have h : ∀ n, dayOfWeek n = (n + 4) % 7 := by
    intro n
    unfold dayOfWeek
    simp only
    have h1 := Int.tmod_eq_emod (a := n + 4) (b := 7)
    have h2 := Int.emod_nonneg (n + 4) (b := 7) (by decide)
    have h3 := Int.emod_lt_of_pos (n + 4) (b := 7) (by decide)
    rw [h1]
    split <;> (try split at *) <;> simp at * <;> omega
  rw [h, h, h]
  refine ⟨by decide, by omega, by omega, by omega⟩

/-- Seconds from the epoch to the given local time. -/
def unixTime (d : Day) (hour minute second timezone : Int) : Int :=
  86400 * d.number + 3600 * hour + 60 * (minute - timezone) + second

/-- **C21** (partial: times not before 1970): the time value of a parsed date is that
number of seconds, split into days and seconds of the day. -/
theorem C21_epoch_time_partial (d : Day) (hour minute second timezone : Int)
    (h : 0 ≤ unixTime d hour minute second timezone) (h2 : unixTime d hour minute second timezone < 2 ^ 62) :
    let t := epochTime d.year d.month d.day hour minute second timezone
    86400 * t.1 + t.2 = unixTime d hour minute second timezone ∧ 0 ≤ t.2 ∧ t.2 < 86400 := by
  have e : (totalDays d.year d.month d.day) * 86400 + totalSeconds hour minute second timezone
      = unixTime d hour minute second timezone := by
    unfold unixTime totalSeconds Day.number; omega
  simp only [epochTime, fixTime, e]
  rw [Int.emod_eq_of_lt h (by omega)]
  omega

/-- 29 February 2000 12:00 UTC. -/
example : (⟨2000, 2, 29⟩ : Day).Valid ∧ (⟨2000, 2, 29⟩ : Day).Late ∧ (⟨2000, 2, 29⟩ : Day).next = ⟨2000, 3, 1⟩ ∧
    epochTime 2000 2 29 12 0 0 0 = (11016, 43200) ∧ 0 ≤ unixTime ⟨2000, 2, 29⟩ 12 0 0 0 := by
  refine ⟨by decide, .inl (by decide), by decide, by decide, by decide⟩

/-- **C21 is false of the code before March of the year 0**: 29 February and 1 March
of the year 0 have the same day number. -/
theorem C21_consecutive_violated :
    (⟨0, 2, 29⟩ : Day).Valid ∧ (⟨0, 2, 29⟩ : Day).next = ⟨0, 3, 1⟩ ∧
      (⟨0, 3, 1⟩ : Day).number = (⟨0, 2, 29⟩ : Day).number := by
  refine ⟨by decide, by decide, by decide⟩

/-- **C21 is false of the code before 1970**: the time value of 31 December 1969 is
some 213 million million days after the epoch, because `fix-time` is unsigned. -/
theorem C21_epoch_time_violated :
    (⟨1969, 12, 31⟩ : Day).number = -1 ∧ epochTime 1969 12 31 0 0 0 0 = (213503982334600, 25216) := by
  refine ⟨by decide, by decide⟩

end Rep.Date
