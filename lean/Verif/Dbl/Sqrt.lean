import Verif.Dbl.SqrtModel
import Verif.Dbl.Convert
import Mathlib.Data.Real.Sqrt
import Mathlib.Data.Set.Finite.Basic
import Mathlib.Tactic.Linarith

/-
C112: square roots.
-/

namespace Rep.Dbl

open Spec
open Rep.Number (Res)

/-- The contract of `sqrt` of the C library (IEEE 754): the result is a double, and no other is nearer to the root. -/
structure Ieee (f : ℚ → ℚ) : Prop where
  double : ∀ d, 0 ≤ d → Double d → Double (f d)
  nearest : ∀ d, 0 ≤ d → Double d → ∀ b, Double b → |(f d : ℝ) - √(d : ℝ)| ≤ |(b : ℝ) - √(d : ℝ)|

theorem Ieee.root {f : ℚ → ℚ} (h : Ieee f) {q : ℚ} (h0 : 0 ≤ q) (hq : Double q) (h2 : Double (q * q)) : f (q * q) = q := by
  have := h.nearest (q * q) (mul_self_nonneg q) h2 q hq
  have e : √((q * q : ℚ) : ℝ) = q := by
    rw [Rat.cast_mul]
    exact Real.sqrt_mul_self (by exact_mod_cast h0)
  rw [e, sub_self, abs_zero] at this
  have := abs_nonpos_iff.1 this
  exact_mod_cast sub_eq_zero.1 this

theorem core {n P u r d s : ℝ} (hP : 0 < P) (huP : u ≤ P) (hu : 0 < u) (hn : P < n) (hr0 : 0 ≤ r) (hr : r * r = d)
    (hd : |d - n * n| ≤ P * u / 2 ∨ (|d - n * n| ≤ P * u ∧ 2 * (P * P) ≤ n * n))
    (hs : |s - r| ≤ |n - r|) (hsep : u ≤ |s - n|) : False := by
  have tri : |s - n| ≤ |s - r| + |r - n| := abs_sub_le s r n
  have e : |r - n| * (r + n) = |d - n * n| := by
    rw [← hr, ← abs_of_pos (show 0 < r + n by linarith), ← abs_mul]
    congr 1
    ring
  rw [abs_sub_comm n r] at hs
  have h2 : u ≤ 2 * |r - n| := by linarith
  have h0 : 0 ≤ |r - n| := abs_nonneg _
  rcases hd with hd | ⟨hd, hnn⟩
  · have : u / 2 * (r + n) ≤ P * u / 2 := le_trans (mul_le_mul_of_nonneg_right (by linarith) (by linarith)) (e ▸ hd)
    nlinarith
  · have h1 : n * n - P * u ≤ d := by have := (abs_le.1 hd).1; linarith
    have hrP : P ≤ r := by
      by_contra hlt
      push Not at hlt
      nlinarith
    have : u / 2 * (r + n) ≤ P * u := le_trans (mul_le_mul_of_nonneg_right (by linarith) (by linarith)) (e ▸ hd)
    nlinarith

/-- Doubles about an integer that is no power of two. -/
theorem sep {n : Int} {s : ℚ} {k : Int} (hs : Double s) (hk0 : 0 ≤ k) (hk : k ≤ 52) (h1 : (2 : ℚ) ^ k < n) (hne : s ≠ n) (h2 : (n : ℚ) < 2 ^ (k + 1)) :
    (2 : ℚ) ^ (k - 52) ≤ |s - n| := by
  rcases lt_or_ge s (2 ^ k) with h | h
  · have hn : (2 : ℚ) ^ k + 1 ≤ n := by
      obtain ⟨j, rfl⟩ := Int.eq_ofNat_of_zero_le hk0
      rw [zpow_natCast] at h1 ⊢
      exact_mod_cast h1
    have : (2 : ℚ) ^ (k - 52) ≤ 1 := by
      rw [show (1 : ℚ) = 2 ^ (0 : Int) by norm_num]
      exact zpow_le_zpow_right₀ (by norm_num) (by omega)
    rw [abs_sub_comm]
    refine le_trans ?_ (le_abs_self _)
    linarith
  · have hp : 0 < s := lt_of_lt_of_le (two_pos k) h
    have hlog : k ≤ Int.log 2 |s| := by
      rw [abs_of_pos hp]
      rw [← Int.zpow_le_iff_le_log (by norm_num) hp]
      exact_mod_cast h
    have hg : Grid (k - 52) s := Grid.le (le_trans (by omega) expo_le_log) hs.grid
    obtain ⟨j, hj⟩ := hg.sub (Grid.int (e := k - 52) (by omega) n)
    have hj0 : j ≠ 0 := by
      rintro rfl
      apply hne
      have : s - n = 0 := by rw [hj]; simp
      linarith
    rw [hj, abs_mul, abs_of_pos (two_pos _)]
    have : (1 : ℚ) ≤ |(j : ℚ)| := by exact_mod_cast Int.one_le_abs hj0
    nlinarith [two_pos (k - 52)]

theorem rn_half (q : ℚ) : |rn q - q| ≤ ulp q / 2 := by
  have h := (nearest_spec (q / ulp q)).1
  have hu := ulp_pos q
  have : rn q - q = -((q / ulp q - nearest (q / ulp q)) * ulp q) := by
    unfold rn
    field_simp
    ring
  rw [this, abs_neg, abs_mul, abs_of_pos hu]
  nlinarith

theorem sqrt_nat {f : ℚ → ℚ} (hf : Ieee f) {n : Int} (h0 : 0 < n) (hn : n < 2 ^ 31) : f (rn ((n * n : Int) : ℚ)) = n ∧ 0 ≤ rn ((n * n : Int) : ℚ) := by
  have hnq : (0 : ℚ) < n := by exact_mod_cast h0
  have hn31 : (n : ℚ) < 2 ^ 31 := by exact_mod_cast hn
  have hqe : ((n * n : Int) : ℚ) = (n : ℚ) * n := by push_cast; ring
  have hdn : Double (n : ℚ) := double_int (by rw [abs_of_pos h0]; omega)
  have hpos : 0 ≤ rn ((n * n : Int) : ℚ) := by
    refine le_rn (Grid.zero _) ?_
    rw [hqe]; positivity
  refine ⟨?_, hpos⟩
  have hlt : |rn ((n * n : Int) : ℚ)| < 2 ^ 1024 := by
    have hd : Double ((2 : ℚ) ^ 62) := ⟨1, 62, by norm_num, by norm_num, by norm_num, by norm_num⟩
    have h1 := (rn_rounded ((n * n : Int) : ℚ)).le_double hd (by rw [hqe]; nlinarith)
    rw [abs_of_nonneg hpos]
    exact lt_of_le_of_lt h1 (pow_lt_pow_right₀ (by norm_num) (by norm_num))
  have hdd : Double (rn ((n * n : Int) : ℚ)) := double_of_grid (rn_rounded _).self_grid hlt
  set k := Int.log 2 (n : ℚ) with hk
  have hk1 : (2 : ℚ) ^ k ≤ n := by have := log_le hnq.ne'; rwa [abs_of_pos hnq] at this
  have hk2 : (n : ℚ) < 2 ^ (k + 1) := by have := lt_log (n : ℚ); rwa [abs_of_pos hnq] at this
  have hk0 : 0 ≤ k := by
    by_contra hneg
    have h1n : (1 : ℚ) ≤ n := by exact_mod_cast h0
    have : (2 : ℚ) ^ (k + 1) ≤ 2 ^ (0 : Int) := zpow_le_zpow_right₀ (by norm_num) (by omega)
    rw [zpow_zero] at this
    linarith
  have hk30 : k ≤ 30 := by
    by_contra hbig
    have : (2 : ℚ) ^ (31 : Int) ≤ 2 ^ k := zpow_le_zpow_right₀ (by norm_num) (by omega)
    have e : (2 : ℚ) ^ (31 : Int) = 2 ^ 31 := by norm_num
    rw [e] at this
    linarith
  rcases eq_or_lt_of_le hk1 with he | hlt1
  · -- a power of two
    have hdq : Double ((n : ℚ) * n) := by
      rw [← he, ← zpow_add₀ two_ne]
      exact ⟨1, k + k, by norm_num, by omega, by omega, by simp⟩
    have : rn ((n * n : Int) : ℚ) = (n : ℚ) * n := by
      rw [hqe]
      exact rn_fix hdq.grid
    rw [this]
    exact hf.root hnq.le hdn hdq
  · by_contra hne
    have hs := hf.nearest _ hpos hdd n hdn
    have hsep := sep (hf.double _ hpos hdd) hk0 (by omega) hlt1 hne hk2
    have hhalf := rn_half ((n * n : Int) : ℚ)
    -- the last place of the square
    have hP := two_pos k
    have hu := two_pos (k - 52)
    have huP : (2 : ℚ) ^ (k - 52) ≤ 2 ^ k := zpow_le_zpow_right₀ (by norm_num) (by omega)
    have hq0 : (0 : ℚ) < (n : ℚ) * n := by positivity
    have hulp : ulp ((n : ℚ) * n) ≤ 2 ^ k * 2 ^ (k - 52) ∨ (ulp ((n : ℚ) * n) ≤ 2 * (2 ^ k * 2 ^ (k - 52)) ∧ 2 * ((2 : ℚ) ^ k * 2 ^ k) ≤ (n : ℚ) * n) := by
      rcases lt_or_ge ((n : ℚ) * n) (2 * ((2 : ℚ) ^ k * 2 ^ k)) with h | h
      · left
        unfold ulp
        rw [← zpow_add₀ two_ne]
        refine zpow_le_zpow_right₀ (by norm_num) (expo_lt hq0.ne' ?_ (by omega))
        rw [abs_of_pos hq0]
        rw [show k + (k - 52) + 53 = 1 + (k + k) by ring, zpow_add₀ two_ne, zpow_add₀ two_ne, zpow_one]
        exact h
      · right
        refine ⟨?_, h⟩
        unfold ulp
        rw [show (2 : ℚ) * (2 ^ k * 2 ^ (k - 52)) = 2 ^ (1 + (k + (k - 52))) by rw [zpow_add₀ two_ne, zpow_add₀ two_ne, zpow_one]]
        refine zpow_le_zpow_right₀ (by norm_num) (expo_lt hq0.ne' ?_ (by omega))
        rw [abs_of_pos hq0]
        rw [show 1 + (k + (k - 52)) + 53 = (k + 1) + (k + 1) by ring, zpow_add₀ two_ne]
        nlinarith
    rw [hqe] at hhalf hs hsep hpos
    refine core (n := ((n : ℚ) : ℝ)) (P := (((2 : ℚ) ^ k : ℚ) : ℝ)) (u := (((2 : ℚ) ^ (k - 52) : ℚ) : ℝ)) (r := √((rn ((n : ℚ) * n) : ℚ) : ℝ))
      (d := ((rn ((n : ℚ) * n) : ℚ) : ℝ)) (s := ((f (rn ((n : ℚ) * n)) : ℚ) : ℝ)) ?_ ?_ ?_ ?_ (Real.sqrt_nonneg _) ?_ ?_ hs ?_
    · exact_mod_cast hP
    · exact_mod_cast huP
    · exact_mod_cast hu
    · exact_mod_cast hlt1
    · exact Real.mul_self_sqrt (by exact_mod_cast hpos)
    · rcases hulp with h | ⟨h, h'⟩
      · left
        have : |rn ((n : ℚ) * n) - (n : ℚ) * n| ≤ 2 ^ k * 2 ^ (k - 52) / 2 := by linarith
        exact_mod_cast this
      · right
        have : |rn ((n : ℚ) * n) - (n : ℚ) * n| ≤ 2 ^ k * 2 ^ (k - 52) := by linarith
        exact ⟨by exact_mod_cast this, by exact_mod_cast h'⟩
    · exact_mod_cast hsep

theorem value_makeFloat (q : ℚ) (b : Bool) : value (makeFloat (.fin q) b) = some q := by
  unfold makeFloat
  split
  · rename_i q' e
    cases e
    split
    · next h =>
      have ht : ((trunc q : Int) : ℚ) = q := by
        rw [← h.2.1, trunc_int]
      have := value_demote (trunc q)
      rw [Rep.Number.maybeDemote_big] at this
      rw [this, ht]
    · rfl
  · next h => exact absurd rfl (h q)

theorem makeFloat_int {n : Int} (h : Rep.Number.Canonical (.fix n)) : makeFloat (.fin (n : ℚ)) false = .ex (.fix n) := by
  have h1 : n < 2 ^ 61 := h.2
  have h2 : -(2 ^ 61) ≤ n := h.1
  unfold makeFloat
  simp only [Int.floor_intCast, trunc_int, true_and]
  rw [if_pos]
  · congr 1
    unfold Rep.Number.makeLongInt
    rw [if_pos ((Rep.Number.range_iff n).2 h), Rep.Number.makeInt_range h]
  · constructor
    · have : n < 2 ^ 63 := by omega
      exact_mod_cast this
    · have : -(2 ^ 63) < n := by omega
      exact_mod_cast this

/-- The root of a fixnum that is a square is exact. -/
theorem C112_square {f : ℚ → ℚ} (hf : Ieee f) (n : Int) (h0 : 0 ≤ n) (hn : n * n ≤ Rep.Number.maxInt) :
    sqrt f (.ex (.fix (n * n))) = .ok (.ex (.fix n)) := by
  have hn31 : n < 2 ^ 31 := by unfold Rep.Number.maxInt at hn; nlinarith
  have key : f (rn ((n * n : Int) : ℚ)) = n ∧ 0 ≤ rn ((n * n : Int) : ℚ) := by
    rcases eq_or_lt_of_le h0 with rfl | h
    · have hd : Double 0 := ⟨0, 0, by norm_num, by norm_num, by norm_num, by norm_num⟩
      have := hf.root le_rfl hd (by simpa using hd)
      simp only [mul_zero, Int.cast_zero, rn_zero] at this ⊢
      exact ⟨this, le_rfl⟩
    · exact sqrt_nat hf h hn31
  obtain ⟨d, hd, hdd, _⟩ := C70_fixnum (n * n) ⟨by unfold Rep.Number.minInt; nlinarith, hn⟩
  have hg : getFloat (.ex (.fix (n * n))) = .fin (rn ((n * n : Int) : ℚ)) := by
    have hd' : pack (rn ((n * n : Int) : ℚ)) = .fin d := by
      have : Number.fl (rne ((n * n : Int) : ℚ)) = .fl (.fin d) := hd
      exact Number.fl.inj this
    unfold pack at hd'
    split at hd'
    · next h => exact rne_eq h
    · cases hd'
  unfold sqrt
  rw [hg]
  simp only [F64.nonneg, key.2, decide_true, if_true, F64.sqrt, inexact, key.1]
  rw [makeFloat_int]
  exact ⟨by omega, by omega⟩

/-- The root of an inexact number is the nearest inexact one, and exactly the root if that is a double. -/
theorem C112_inexact {f : ℚ → ℚ} (hf : Ieee f) (d : ℚ) (h0 : 0 ≤ d) (hd : Double d) :
    ∃ s, sqrt f (.fl (.fin d)) = .ok (.fl (.fin s)) ∧ Double s ∧ (∀ b, Double b → |(s : ℝ) - √(d : ℝ)| ≤ |(b : ℝ) - √(d : ℝ)|) ∧
      ∀ q, 0 ≤ q → Double q → q * q = d → s = q := by
  refine ⟨f d, ?_, hf.double d h0 hd, hf.nearest d h0 hd, ?_⟩
  · unfold sqrt
    simp [getFloat, F64.nonneg, h0, F64.sqrt, inexact, makeFloat]
  · rintro q hq0 hq rfl
    exact hf.root hq0 hq hd

/-- Negative numbers have no root.
Missing: exact ones between zero and the greatest negative double. -/
theorem C112_negative_partial (f : ℚ → ℚ) (x : Number) (hx : Valid x) {v : ℚ} (hv : value x = some v) (hn : v ≤ -(2 ^ (-1074 : Int))) :
    sqrt f x = .arithError := by
  have hp : place x = some (E.of v) := by
    cases x with
    | ex n => cases n <;> (cases hv; rfl)
    | fl d => cases d <;> cases hv; rfl
  obtain ⟨_, d, hd, hb⟩ := getFloat_spec x hx hp
  have hdb : Double (-(2 ^ (-1074 : Int))) := ⟨-1, -1074, by norm_num, by norm_num, by norm_num, by simp⟩
  have hle := (hb (.fin (-(2 ^ (-1074 : Int)))) hdb (E.of (-(2 ^ (-1074 : Int)))) rfl).1 (of_le.2 hn)
  unfold sqrt
  have : (getFloat x).nonneg = false := by
    cases hg : getFloat x with
    | fin q =>
      rw [hg] at hd
      cases hd
      have := of_le.1 hle
      have h2 := two_pos (-1074)
      simp only [F64.nonneg, decide_eq_false_iff_not, not_le]
      linarith
    | inf s =>
      cases s with
      | true => rfl
      | false =>
        rw [hg] at hd
        cases hd
        exact absurd hle (not_le.2 (of_lt_top _))
    | nan => rfl
  simp [this]

/-- The root of infinity is infinite; negative infinity and nan have none. -/
theorem C112_infinite (f : ℚ → ℚ) : sqrt f (.fl (.inf false)) = .ok (.fl (.inf false)) ∧ sqrt f (.fl (.inf true)) = .arithError ∧
    sqrt f (.fl .nan) = .arithError := ⟨rfl, rfl, rfl⟩

theorem lt_1024 {x : ℚ} (h0 : 0 ≤ x) (h : x ≤ 2 ^ 70) : |x| < 2 ^ 1024 := by
  rw [abs_of_nonneg h0]
  exact lt_of_le_of_lt h (pow_lt_pow_right₀ (by norm_num) (by norm_num))

/-- The square of 3037000502 as a double: bignums are truncated. -/
theorem big_float : getFloat (.ex (.big 9223372049148252004)) = .fin 9223372049148250112 := by
  have hu : ulp (9223372049148252004 : ℚ) = 2048 := by
    have habs : |(9223372049148252004 : ℚ)| = 9223372049148252004 := abs_of_pos (by norm_num)
    unfold ulp expo
    rw [log_eq (k := 63) (by rw [habs]; norm_num) (by rw [habs]; norm_num)]
    norm_num
  have e : rz (9223372049148252004 : ℚ) = 9223372049148250112 := by
    unfold rz
    rw [hu]
    have : trunc ((9223372049148252004 : ℚ) / 2048) = 4503599633373169 := by
      unfold trunc
      rw [if_pos (by norm_num), Int.floor_eq_iff]
      norm_num
    rw [this]; norm_num
  show rtz ((9223372049148252004 : Int) : ℚ) = _
  have hc : ((9223372049148252004 : Int) : ℚ) = 9223372049148252004 := by norm_num
  rw [hc, rtz_eq (by rw [e]; exact lt_1024 (by norm_num) (by norm_num)), e]

/-- The root of a bignum that is a square can be wrong. -/
theorem C112_big_violated {f : ℚ → ℚ} (hf : Ieee f) : (3037000502 : Int) * 3037000502 = 9223372049148252004 ∧
    ∃ r, sqrt f (.ex (.big 9223372049148252004)) = .ok r ∧ value r ≠ some 3037000502 := by
  refine ⟨by norm_num, makeFloat (.fin (f 9223372049148250112)) false, ?_, ?_⟩
  · unfold sqrt
    rw [big_float]
    have : (0 : ℚ) ≤ 9223372049148250112 := by norm_num
    simp [F64.nonneg, F64.sqrt, inexact]
  · rw [value_makeFloat]
    intro e
    have e' : f 9223372049148250112 = 3037000502 := Option.some.inj e
    have hdd : Double (9223372049148250112 : ℚ) := ⟨4503599633373169, 11, by norm_num, by norm_num, by norm_num, by norm_num⟩
    have hb : Double (3037000502 - 1 / 2 ^ 21 : ℚ) := ⟨3037000502 * 2 ^ 21 - 1, -21, by norm_num, by norm_num, by norm_num, by norm_num⟩
    have h := hf.nearest 9223372049148250112 (by norm_num) hdd _ hb
    rw [e'] at h
    push_cast at h
    have hlt : √(9223372049148250112 : ℝ) < 3037000502 - 1 / 2 ^ 22 := by
      rw [Real.sqrt_lt' (by norm_num)]
      norm_num
    have hlo : (3037000502 : ℝ) - 1 / 2 ^ 21 ≤ √(9223372049148250112 : ℝ) ∨ √(9223372049148250112 : ℝ) ≤ 3037000502 - 1 / 2 ^ 21 := le_total _ _
    rw [abs_of_pos (by linarith [show (0 : ℝ) < 1 / 2 ^ 22 by norm_num])] at h
    rcases hlo with hlo | hlo
    · rw [abs_of_nonpos (by linarith)] at h
      norm_num at h hlt
      linarith
    · rw [abs_of_nonneg (by linarith)] at h
      norm_num at h

/-- The result is exact although there is no exact root. -/
theorem C112_no_square_violated {f : ℚ → ℚ} (hf : Ieee f) : sqrt f (.ex (.fix (2 ^ 60 + 1))) = .ok (.ex (.fix (2 ^ 30))) := by
  have hu : ulp ((2 ^ 60 + 1 : ℚ)) = 2 ^ 8 := by
    have habs : |(2 ^ 60 + 1 : ℚ)| = 2 ^ 60 + 1 := abs_of_pos (by norm_num)
    unfold ulp expo
    rw [log_eq (k := 60) (by rw [habs]; norm_num) (by rw [habs]; norm_num)]
    norm_num
  have e : rn (2 ^ 60 + 1 : ℚ) = 2 ^ 60 := by
    unfold rn
    rw [hu]
    have : nearest ((2 ^ 60 + 1 : ℚ) / 2 ^ 8) = 2 ^ 52 := by
      refine nearest_eq ?_ ?_ <;> norm_num
    rw [this]; norm_num
  have hg : getFloat (.ex (.fix (2 ^ 60 + 1))) = .fin (2 ^ 60) := by
    show rne ((2 ^ 60 + 1 : Int) : ℚ) = _
    have hc : ((2 ^ 60 + 1 : Int) : ℚ) = 2 ^ 60 + 1 := by norm_num
    rw [hc, rne_eq (by rw [e]; exact lt_1024 (by norm_num) (by norm_num)), e]
  have hr : f (2 ^ 60) = ((2 ^ 30 : Int) : ℚ) := by
    have := hf.root (q := 2 ^ 30) (by norm_num) ⟨1, 30, by norm_num, by norm_num, by norm_num, by norm_num⟩
      ⟨1, 60, by norm_num, by norm_num, by norm_num, by norm_num⟩
    rw [show (2 : ℚ) ^ 30 * 2 ^ 30 = 2 ^ 60 by norm_num] at this
    rw [this]
    norm_num
  unfold sqrt
  rw [hg]
  have h0 : (0 : ℚ) ≤ 2 ^ 60 := by norm_num
  simp only [F64.nonneg, h0, decide_true, if_true, F64.sqrt, inexact, hr]
  rw [makeFloat_int]
  exact ⟨by norm_num, by norm_num⟩

/-- An exact fraction that is a square has an inexact root. -/
theorem C112_fraction_violated {f : ℚ → ℚ} (hf : Ieee f) : sqrt f (.ex (.rat (1 / 4))) = .ok (.fl (.fin (1 / 2))) := by
  have hd : Double (1 / 4) := ⟨1, -2, by norm_num, by norm_num, by norm_num, by norm_num⟩
  have hg : getFloat (.ex (.rat (1 / 4))) = .fin (1 / 4) := hd.rtz
  have hr : f (1 / 4) = 1 / 2 := by
    have := hf.root (q := 1 / 2) (by norm_num) double_half (by norm_num; exact_mod_cast hd)
    rwa [show (1 / 2 : ℚ) * (1 / 2) = 1 / 4 by norm_num] at this
  unfold sqrt
  rw [hg]
  have h0 : (0 : ℚ) ≤ 1 / 4 := by norm_num
  simp only [F64.nonneg, h0, decide_true, if_true, F64.sqrt, inexact, hr]
  unfold makeFloat
  have : ¬ ((⌊(1 / 2 : ℚ)⌋ : ℚ) = 1 / 2) := by
    have : ⌊(1 / 2 : ℚ)⌋ = 0 := by rw [Int.floor_eq_iff]; norm_num
    rw [this]; norm_num
  simp only [this, false_and, and_false, if_false]

/-- A negative fraction near to zero has a root. -/
theorem C112_tiny_violated {f : ℚ → ℚ} (hf : Ieee f) : sqrt f (.ex (.rat (-(2 ^ (-1100 : Int))))) = .ok (.ex (.fix 0)) := by
  have hp := two_pos (-1100)
  have hu : ulp ((2 : ℚ) ^ (-1100 : Int)) = 2 ^ (-1074 : Int) := by
    have habs : |(2 : ℚ) ^ (-1100 : Int)| = 2 ^ (-1100 : Int) := abs_of_pos hp
    unfold ulp expo
    rw [log_eq (k := -1100) (by rw [habs]) (by rw [habs]; exact zpow_lt_zpow_right₀ (by norm_num) (by norm_num))]
    rfl
  have e : rz (-(2 : ℚ) ^ (-1100 : Int)) = 0 := by
    rw [rz_neg]
    unfold rz
    rw [hu, ← zpow_sub₀ two_ne]
    have : trunc ((2 : ℚ) ^ (-1100 - -1074 : Int)) = 0 := by
      have h := two_pos (-1100 - -1074)
      unfold trunc
      rw [if_pos h.le, Int.floor_eq_iff]
      refine ⟨by simpa using h.le, ?_⟩
      norm_num
    rw [this]; simp
  have hg : getFloat (.ex (.rat (-(2 ^ (-1100 : Int))))) = .fin 0 := by
    show rtz (-(2 : ℚ) ^ (-1100 : Int)) = _
    rw [rtz_eq (by rw [e]; exact lt_1024 le_rfl (by norm_num)), e]
  have hd : Double 0 := ⟨0, 0, by norm_num, by norm_num, by norm_num, by norm_num⟩
  have hr : f 0 = ((0 : Int) : ℚ) := by
    have := hf.root le_rfl hd (by simpa using hd)
    simpa using this
  unfold sqrt
  rw [hg]
  simp only [F64.nonneg, le_refl, decide_true, if_true, F64.sqrt, inexact, hr]
  rw [makeFloat_int]
  exact ⟨by norm_num, by norm_num⟩

theorem doubles_finite : {q : ℚ | Double q}.Finite := by
  have : {q : ℚ | Double q} ⊆ (fun p : Int × Int => (p.1 : ℚ) * 2 ^ p.2) '' (Set.Icc (-(2 ^ 53)) (2 ^ 53) ×ˢ Set.Icc (-1074) 971) := by
    rintro q ⟨m, e, hm, h1, h2, rfl⟩
    rw [abs_lt] at hm
    exact ⟨(m, e), ⟨⟨by omega, by omega⟩, ⟨h1, h2⟩⟩, rfl⟩
  exact Set.Finite.subset (Set.Finite.image _ ((Set.finite_Icc _ _).prod (Set.finite_Icc _ _))) this

/-- There is such a function. -/
theorem ieee_exists : ∃ f, Ieee f := by
  classical
  have h : ∀ d : ℚ, ∃ s, Double s ∧ ∀ b, Double b → |(s : ℝ) - √(d : ℝ)| ≤ |(b : ℝ) - √(d : ℝ)| := by
    intro d
    obtain ⟨s, hs, hb⟩ := Set.exists_min_image {q : ℚ | Double q} (fun s => |(s : ℝ) - √(d : ℝ)|) doubles_finite
      ⟨1 / 2, double_half⟩
    exact ⟨s, hs, hb⟩
  choose f hf using h
  exact ⟨f, fun d _ _ => (hf d).1, fun d _ _ => (hf d).2⟩

example : ∃ n : Int, 2 ^ 30 < n ∧ n * n ≤ Rep.Number.maxInt := ⟨2 ^ 30 + 1, by norm_num, by unfold Rep.Number.maxInt; norm_num⟩

example : Valid (.ex (.rat (-1 / 3))) ∧ (-1 / 3 : ℚ) ≤ -(2 ^ (-1074 : Int)) := by
  refine ⟨trivial, ?_⟩
  have : (2 : ℚ) ^ (-1074 : Int) ≤ 2 ^ (-2 : Int) := zpow_le_zpow_right₀ (by norm_num) (by norm_num)
  norm_num at this ⊢
  linarith

end Rep.Dbl
