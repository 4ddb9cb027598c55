import Verif.Time.Model
import Verif.Time.Spec
import Verif.Num.Props
import Mathlib.Tactic.NormNum
import Mathlib.Tactic.Linarith

/-
C97  Time stamps.
-/

namespace Rep.Time

open Rep.Number

/-! ### seconds and stamps in Lisp -/

theorem canonical_eq_fix {v : Num} {z : Int} (hz : -(2 ^ 61) ≤ z ∧ z < 2 ^ 61) (hc : Canonical v)
    (hv : value v = z) : v = .fix z := by
  cases v with
  | fix w => simp only [value] at hv; rw [show w = z by exact_mod_cast hv]
  | big w =>
    simp only [value] at hv
    have : w = z := by exact_mod_cast hv
    subst this
    exact absurd hz hc
  | rat q =>
    simp only [value] at hv
    subst hv
    simp [Canonical] at hc

/-- The seconds of a stamp of fixnums. -/
theorem timeToSeconds_exact (d s : Int) (hs : -(2 ^ 61) ≤ s ∧ s < 2 ^ 61)
    (hd : -(2 ^ 61) ≤ d ∧ d < 2 ^ 61) (hm : -(2 ^ 63) ≤ d * 86400 ∧ d * 86400 < 2 ^ 63) :
    ∃ v, timeToSeconds (stamp d s) = .ok v ∧ value v = seconds d s ∧ Canonical v := by
  obtain ⟨p, p1, p2, p3⟩ := C02_mul_exact_partial (.fix d) (.fix 86400) hd (by simp [WF]) (by
    rintro a b ⟨⟩ ⟨⟩; exact hm)
  obtain ⟨v, v1, v2, v3, v4⟩ := C01_plus_exact [p, .fix s] (by
    intro n hn
    simp only [List.mem_cons, List.not_mem_nil, or_false] at hn
    rcases hn with rfl | rfl
    · exact p3.wf
    · exact hs)
  refine ⟨v, ?_, ?_, v4 (by simp)⟩
  · have : product [.num (.fix d), .num (.fix 86400)] = .ok p := by
      rw [← p1]
      simp only [product, foldv, foldArgs, anyNum, if_true]
    simp only [timeToSeconds, stamp, this, Res.bind]
    exact v1
  · rw [v3]
    simp only [List.map_cons, List.map_nil, List.sum_cons, List.sum_nil, p2]
    simp only [value, seconds]
    push_cast; ring

/-- Missing: stamps with halves that are not fixnums, and days whose number of seconds does not
fit 64 bits. -/
theorem C97_time_to_seconds_partial (d s : Int) (hs : -(2 ^ 61) ≤ s ∧ s < 2 ^ 61)
    (hd : -(2 ^ 61) ≤ d ∧ d < 2 ^ 61) (hm : -(2 ^ 63) ≤ d * 86400 ∧ d * 86400 < 2 ^ 63) :
    IsExactly (timeToSeconds (stamp d s)) (seconds d s) := timeToSeconds_exact d s hs hd hm

theorem small_day {d : Int} (hm : -(2 ^ 63) ≤ d * 86400 ∧ d * 86400 < 2 ^ 63) :
    -(2 ^ 61) ≤ d ∧ d < 2 ^ 61 := by omega

/-- The stamp of a number of seconds, computed by `quotient` and `mod`. -/
theorem secondsToTime_fix (x : Int) (hx : -(2 ^ 61) ≤ x ∧ x < 2 ^ 61) :
    secondsToTime (.fix x) = .ok (stamp (Int.tdiv x 86400) (Int.fmod x 86400)) := by
  obtain ⟨q, q1, q2, q3⟩ := quotient_int (x := .fix x) (y := .fix 86400) hx rfl rfl (by decide)
    (by rintro ⟨_, h⟩; simp at h)
  obtain ⟨r, r1, r2, r3⟩ := mod_int (x := .fix x) (y := .fix 86400) (by simp [WF]) rfl rfl (by decide)
    (by rintro ⟨a, b, h, _⟩; cases h)
  simp only [intValue] at q2 r2
  have hb := (fmod_bounds x (show (86400 : Int) ≠ 0 by decide)).1 (by decide)
  have hq : -(2 ^ 61) ≤ Int.tdiv x 86400 ∧ Int.tdiv x 86400 < 2 ^ 61 := by
    have h1 := Int.mul_tdiv_add_tmod x 86400
    have h2 : (Int.tmod x 86400).natAbs < 86400 := by
      have := Int.natAbs_tmod x 86400
      rw [this]; exact Nat.mod_lt _ (by decide)
    omega
  rw [canonical_eq_fix hq q3 q2] at q1
  rw [canonical_eq_fix (by omega) r3 r2] at r1
  simp only [secondsToTime, q1, r1, Res.bind, stamp]

theorem tdiv_nonneg_eq {x : Int} (h : 0 ≤ x) : Int.tdiv x 86400 = x / 86400 :=
  Int.tdiv_eq_ediv_of_nonneg h

theorem fmod_eq (x : Int) : Int.fmod x 86400 = x % 86400 := Int.fmod_eq_emod_of_nonneg x (by decide)

def C97_roundtrip_statement : Prop :=
  ∀ x, integerp x = true → WF x → ∃ t, secondsToTime x = .ok t ∧ IsExactly (timeToSeconds t) (value x)

/-- Seconds since the epoch: the stamp is consistent and stands for that second.  Missing: times
before the epoch, and bignums. -/
theorem C97_roundtrip_partial (x : Int) (hx : 0 ≤ x ∧ x < 2 ^ 61) :
    ∃ d s, secondsToTime (.fix x) = .ok (stamp d s) ∧ Consistent d s ∧ seconds d s = x ∧
      timeToSeconds (stamp d s) = .ok (.fix x) := by
  refine ⟨x / 86400, x % 86400, ?_, ?_, ?_, ?_⟩
  · rw [secondsToTime_fix x (by omega), tdiv_nonneg_eq hx.1, fmod_eq]
  · exact ⟨by omega, by omega⟩
  · unfold seconds; omega
  · obtain ⟨v, h1, h2, h3⟩ := timeToSeconds_exact (x / 86400) (x % 86400) (by omega) (by omega) (by omega)
    rw [h1, canonical_eq_fix (z := x) (by omega) h3 (by rw [h2]; congr 1; unfold seconds; omega)]

/-- A time before the epoch, not at the start of a day, comes back a day late. -/
theorem C97_before_epoch_violated (x : Int) (hx : -(2 ^ 61) ≤ x ∧ x < 0) (hm : x % 86400 ≠ 0) :
    ∃ t, secondsToTime (.fix x) = .ok t ∧ timeToSeconds t = .ok (.fix (x + 86400)) := by
  have hq : Int.tdiv x 86400 = x / 86400 + 1 := by
    rw [Int.tdiv_eq_ediv, if_neg (by rw [Int.dvd_iff_emod_eq_zero]; omega)]
    rfl
  refine ⟨_, secondsToTime_fix x (by omega), ?_⟩
  rw [hq, fmod_eq]
  obtain ⟨v, h1, h2, h3⟩ := timeToSeconds_exact (x / 86400 + 1) (x % 86400) (by omega) (by omega) (by omega)
  rw [h1, canonical_eq_fix (z := x + 86400) (by omega) h3 (by rw [h2]; congr 1; unfold seconds; omega)]

/-- The second before the epoch is the last of the day after it; the stamp of `2^64` cannot be
turned back into seconds. -/
theorem C97_roundtrip_violated :
    secondsToTime (.fix (-1)) = .ok (stamp 0 86399) ∧
      (secondsToTime (.big (2 ^ 64))).bind timeToSeconds = .ub ∧ ¬ C97_roundtrip_statement := by
  refine ⟨by decide +kernel, by decide +kernel, fun h => ?_⟩
  obtain ⟨t, h1, v, h2, h3, _⟩ := h (.fix (-1)) rfl (by simp [WF])
  obtain ⟨t', h4, h5⟩ := C97_before_epoch_violated (-1) (by omega) (by decide)
  rw [h4, Res.ok.injEq] at h1
  subst h1
  rw [h5, Res.ok.injEq] at h2
  subst h2
  simp only [value] at h3
  norm_num at h3

/-- A consistent stamp since the epoch comes back from its seconds. -/
theorem C97_stamp_roundtrip_partial (d s : Int) (hc : Consistent d s) (hd : 0 ≤ d)
    (hx : seconds d s < 2 ^ 61) :
    ∃ x, timeToSeconds (stamp d s) = .ok x ∧ secondsToTime x = .ok (stamp d s) := by
  unfold seconds at hx
  obtain ⟨hs0, hs1⟩ := hc
  obtain ⟨v, h1, h2, h3⟩ := timeToSeconds_exact d s (by omega) (by omega) (by omega)
  rw [canonical_eq_fix (z := seconds d s) (by unfold seconds; omega) h3 h2] at h1
  refine ⟨_, h1, ?_⟩
  rw [secondsToTime_fix _ (by unfold seconds; omega), tdiv_nonneg_eq (by unfold seconds; omega), fmod_eq]
  have e1 : seconds d s / 86400 = d := by unfold seconds; omega
  have e2 : seconds d s % 86400 = s := by unfold seconds; omega
  rw [e1, e2]

/-- `time-` is the difference in seconds.  Missing: as for `C97_time_to_seconds_partial`. -/
theorem C97_difference_partial (d s d' s' : Int) (hs : -(2 ^ 61) ≤ s ∧ s < 2 ^ 61)
    (hs' : -(2 ^ 61) ≤ s' ∧ s' < 2 ^ 61) (hm : -(2 ^ 63) ≤ d * 86400 ∧ d * 86400 < 2 ^ 63)
    (hm' : -(2 ^ 63) ≤ d' * 86400 ∧ d' * 86400 < 2 ^ 63) :
    IsExactly (timeMinus (stamp d s) (stamp d' s')) ((seconds d s - seconds d' s' : Int) : Rat) := by
  obtain ⟨v, h1, h2, h3⟩ := timeToSeconds_exact d s hs (small_day hm) hm
  obtain ⟨w, h4, h5, h6⟩ := timeToSeconds_exact d' s' hs' (small_day hm') hm'
  obtain ⟨z, z1, z2, z3⟩ := C01_minus_exact v w [] h3.wf h6.wf (by simp)
  refine ⟨z, ?_, ?_, z3⟩
  · simp only [timeMinus, h1, h4, Res.bind]; exact z1
  · rw [z2, h2, h5]; simp

/-! ### stamps in C -/

theorem getTime_since (d s : Int) (h : SinceEpoch d s) :
    getTime (stamp d s) = .ok (seconds d s).toNat := by
  obtain ⟨h1, h2, h3, h4⟩ := h
  unfold seconds at h3 h4
  simp only [getTime, stamp, slong, if_pos (And.intro h1 h2), CRes.bind]
  rw [if_pos (by omega)]
  simp only [ulong, seconds]
  rw [Int.emod_eq_of_lt (by omega) (by omega)]

theorem makeTime_eq (n : Nat) (h : n < 2 ^ 64) : makeTime n = stamp (n / 86400 : Nat) (n % 86400 : Nat) := by
  unfold makeTime stamp
  rw [makeInt_range (by omega), makeInt_range (by omega)]

/-- The current time is a consistent stamp of the second that the clock shows. -/
theorem C97_current_time (now : Nat) (h : now < 2 ^ 64) :
    ∃ d s, currentTime now = stamp d s ∧ Consistent d s ∧ seconds d s = now := by
  refine ⟨_, _, makeTime_eq now h, ⟨by omega, by omega⟩, ?_⟩
  unfold seconds; omega

/-- `fix-time` makes a stamp consistent and does not change the time.  Missing: times before the
epoch, and halves that are not fixnums. -/
theorem C97_fix_time_partial (d s : Int) (h : SinceEpoch d s) :
    ∃ d' s', fixTime (stamp d s) = .ok (stamp d' s') ∧ Consistent d' s' ∧ seconds d' s' = seconds d s ∧
      fixTime (stamp d' s') = .ok (stamp d' s') := by
  have hb := h
  obtain ⟨h1, h2, h3, h4⟩ := hb
  have e : ∀ d s, SinceEpoch d s → fixTime (stamp d s) = .ok (stamp (seconds d s / 86400) (seconds d s % 86400)) := by
    intro d s h
    unfold fixTime
    rw [getTime_since d s h]
    obtain ⟨_, _, h3, h4⟩ := h
    simp only [CRes.bind]
    rw [makeTime_eq _ (by omega)]
    congr 2 <;> omega
  have hc : seconds (seconds d s / 86400) (seconds d s % 86400) = seconds d s := by
    generalize seconds d s = x
    unfold seconds
    omega
  refine ⟨_, _, e d s h, ⟨by omega, by omega⟩, hc, ?_⟩
  rw [e _ _ ⟨by omega, by omega, by omega, by omega⟩, hc]

/-- A consistent stamp is left alone. -/
theorem C97_fix_time_consistent (d s : Int) (h : SinceEpoch d s) (hc : Consistent d s) :
    fixTime (stamp d s) = .ok (stamp d s) := by
  obtain ⟨d', s', h1, ⟨h2, h3⟩, h4, _⟩ := C97_fix_time_partial d s h
  obtain ⟨h5, h6⟩ := hc
  unfold seconds at h4
  rw [h1, show d' = d by omega, show s' = s by omega]

/-- One second before the epoch: the day is about 5.8 million centuries later, and another
`fix-time` of the stamp overflows. -/
theorem C97_fix_time_violated :
    fixTime (stamp 0 (-1)) = .ok (stamp 213503982334601 25215) ∧
      fixTime (stamp 213503982334601 25215) = .undef := by decide +kernel

/-- `time-later-p` compares the seconds.  Missing: times before the epoch, and halves that are not
fixnums. -/
theorem C97_later_partial (d s d' s' : Int) (h : SinceEpoch d s) (h' : SinceEpoch d' s') :
    timeLaterP (stamp d s) (stamp d' s') = .ok (decide (seconds d' s' < seconds d s)) := by
  simp only [timeLaterP, getTime_since d s h, getTime_since d' s' h', CRes.bind]
  obtain ⟨_, _, h3, _⟩ := h
  obtain ⟨_, _, h4, _⟩ := h'
  congr 1
  rw [Bool.eq_iff_iff]; simp only [decide_eq_true_eq]; omega

/-- Every time before the epoch is later than every time since. -/
theorem C97_later_violated (d s d' s' : Int)
    (h : -(2 ^ 63) ≤ d * 86400 ∧ d * 86400 < 2 ^ 63 ∧ -(2 ^ 63) ≤ seconds d s ∧ seconds d s < 0)
    (h' : SinceEpoch d' s') : timeLaterP (stamp d s) (stamp d' s') = .ok true := by
  obtain ⟨h1, h2, h3, h4⟩ := h
  have e : getTime (stamp d s) = .ok (seconds d s + 2 ^ 64).toNat := by
    unfold seconds at h3 h4
    simp only [getTime, stamp, slong, if_pos (And.intro h1 h2), CRes.bind]
    rw [if_pos (by omega)]
    simp only [ulong, seconds]
    congr 2; omega
  simp only [timeLaterP, e, getTime_since d' s' h', CRes.bind]
  obtain ⟨_, _, h5, h6⟩ := h'
  congr 1
  simp only [decide_eq_true_eq]; omega

/-- Later clocks give later stamps, in C and in Lisp. -/
theorem C97_clock_order (a b : Nat) (ha : a < 2 ^ 63) (hb : b < 2 ^ 63) :
    timeLaterP (currentTime b) (currentTime a) = .ok (decide (a < b)) := by
  have e : ∀ n : Nat, n < 2 ^ 63 → ∃ d s, currentTime n = stamp d s ∧ SinceEpoch d s ∧ seconds d s = n := by
    intro n hn
    refine ⟨_, _, makeTime_eq n (by omega), ⟨by omega, by omega, ?_, ?_⟩, ?_⟩ <;> unfold seconds <;> omega
  obtain ⟨d, s, h1, h2, h3⟩ := e a ha
  obtain ⟨d', s', h4, h5, h6⟩ := e b hb
  rw [h1, h4, C97_later_partial _ _ _ _ h5 h2, h3, h6]
  congr 1
  rw [Bool.eq_iff_iff]; simp only [decide_eq_true_eq]; omega

example : SinceEpoch 20000 90000 ∧ fixTime (stamp 20000 90000) = .ok (stamp 20001 3600) ∧
    timeLaterP (stamp 20000 90000) (stamp 20001 0) = .ok true ∧
    secondsToTime (.fix 1700000000) = .ok (stamp 19675 80000) ∧
    timeMinus (stamp 19675 80000) (stamp 19675 0) = .ok (.fix 80000) :=
  ⟨by unfold SinceEpoch seconds; omega, by decide +kernel⟩

end Rep.Time
