import Verif.Dbl.Lemmas

namespace Rep.Dbl

open Spec

theorem expo_mono {a b : ℚ} (h0 : a ≠ 0) (h : |a| ≤ |b|) : expo a ≤ expo b := by
  have : Int.log 2 |a| ≤ Int.log 2 |b| := Int.log_mono_right (abs_pos.2 h0) h
  unfold expo
  omega

/-! ### The adjustment in `round` -/

/-- An integer which is a double, halved. -/
theorem half_int {n : Int} (h : Double (n : ℚ)) : F64.half (.fin n) = .fin ((n : ℚ) / 2) := by
  refine Double.rne ?_
  obtain ⟨m, e, hm, he, he', hq⟩ := h
  rcases lt_or_eq_of_le he with h | h
  · refine ⟨m, e - 1, hm, by omega, by omega, ?_⟩
    rw [hq, zpow_sub_one₀ two_ne]
    ring
  · have : |(n : ℚ)| < 1 := by
      rw [hq, abs_mul, abs_of_pos (two_pos e), ← h]
      have h1 : |(m : ℚ)| < 2 ^ 53 := by exact_mod_cast hm
      have h2 : (2 : ℚ) ^ (-1074 : Int) ≤ 2 ^ (-53 : Int) := zpow_le_zpow_right₀ (by norm_num) (by norm_num)
      calc |(m : ℚ)| * 2 ^ (-1074 : Int) ≤ |(m : ℚ)| * 2 ^ (-53 : Int) := mul_le_mul_of_nonneg_left h2 (abs_nonneg _)
        _ < 2 ^ 53 * 2 ^ (-53 : Int) := mul_lt_mul_of_pos_right h1 (two_pos _)
        _ = 1 := by norm_num
    have : |n| < 1 := by exact_mod_cast this
    have : n = 0 := by rw [Int.abs_lt_one_iff] at this; exact this
    exact ⟨0, 0, by norm_num, by norm_num, by norm_num, by simp [this]⟩

/-- Odd doubles are small. -/
theorem odd_lt {n : Int} (h : Double (n : ℚ)) (ho : n % 2 = 1) : |n| < 2 ^ 53 := by
  obtain ⟨m, e, hm, _, _, hq⟩ := h
  rcases le_or_gt e 0 with h | h
  · have h1 : |(n : ℚ)| ≤ |(m : ℚ)| := by
      rw [hq, abs_mul, abs_of_pos (two_pos e)]
      have : (2 : ℚ) ^ e ≤ 2 ^ (0 : Int) := zpow_le_zpow_right₀ (by norm_num) h
      rw [zpow_zero] at this
      exact mul_le_of_le_one_right (abs_nonneg _) this
    have : |n| ≤ |m| := by exact_mod_cast h1
    omega
  · obtain ⟨k, rfl⟩ : ∃ k : Nat, e = k + 1 := ⟨(e - 1).toNat, by omega⟩
    have : n = m * 2 ^ k * 2 := by
      have : (n : ℚ) = ((m * 2 ^ k * 2 : Int) : ℚ) := by
        rw [hq, zpow_add₀ two_ne]
        push_cast
        rw [zpow_natCast]
        ring
      exact_mod_cast this
    omega

theorem floor_half (n : Int) : ((⌊(n : ℚ) / 2⌋ : ℚ) = (n : ℚ) / 2) ↔ n % 2 = 0 := by
  constructor
  · intro h
    have : (n : ℚ) = ((⌊(n : ℚ) / 2⌋ * 2 : Int) : ℚ) := by push_cast; linarith
    have : n = ⌊(n : ℚ) / 2⌋ * 2 := by exact_mod_cast this
    omega
  · intro h
    obtain ⟨k, rfl⟩ : ∃ k, n = k * 2 := ⟨n / 2, by omega⟩
    have : ((k * 2 : Int) : ℚ) / 2 = k := by push_cast; ring
    rw [this, Int.floor_intCast]

/-- `round`, once the sum is known. -/
theorem round_of_sum {d p : ℚ} (hp : rn (d + 1 / 2) = p) (hd : Double p) :
    (F64.fin d).round = .fin (if p = ⌊p⌋ ∧ ⌊p⌋ % 2 = 1 then (⌊p⌋ - 1 : Int) else ⌊p⌋ : Int) := by
  have hs : F64.add (.fin d) (1 / 2) = .fin p := by
    show rne (d + 1 / 2) = _
    rw [rne_eq (by rw [hp]; exact hd.lt), hp]
  unfold F64.round
  simp only [hs, F64.floor, F64.eq]
  by_cases hi : p = ⌊p⌋
  · have hd' : Double ((⌊p⌋ : Int) : ℚ) := by rw [← hi]; exact hd
    have hh : F64.half (.fin p) = .fin ((⌊p⌋ : ℚ) / 2) := by
      have := half_int hd'
      rw [← hi] at this ⊢
      exact this
    rw [hh]
    have e1 : (p == (⌊p⌋ : ℚ)) = true := by simpa using hi
    rw [e1]
    rcases Int.emod_two_eq_zero_or_one ⌊p⌋ with h0 | h1
    · have e2 : (((⌊p⌋ : ℚ) / 2) == (⌊(⌊p⌋ : ℚ) / 2⌋ : ℚ)) = true := by
        rw [beq_iff_eq]; exact ((floor_half _).2 h0).symm
      simp only [e2]
      rw [if_neg (by decide), if_neg (by omega)]
    · have e2 : (((⌊p⌋ : ℚ) / 2) == (⌊(⌊p⌋ : ℚ) / 2⌋ : ℚ)) = false := by
        rw [beq_eq_false_iff_ne]
        intro h
        have := (floor_half _).1 h.symm
        omega
      simp only [e2]
      rw [if_pos (by decide), if_pos ⟨hi, h1⟩]
      show rne ((⌊p⌋ : ℚ) + -1) = _
      have := odd_lt hd' h1
      have hb : |⌊p⌋ - 1| ≤ 2 ^ 53 := by rw [abs_lt] at this; rw [abs_le]; omega
      have := (double_int hb).rne
      push_cast at this ⊢
      rw [← sub_eq_add_neg]
      exact this
  · have e1 : (p == (⌊p⌋ : ℚ)) = false := by simpa using hi
    rw [e1, if_neg (by simp), if_neg (fun h => hi h.1)]

/-- The adjusted floor of `d + 1/2` is the nearest integer. -/
theorem nearest_of_sum {d s : ℚ} (hs : s = d + 1 / 2) :
    nearest d = if s = ⌊s⌋ ∧ ⌊s⌋ % 2 = 1 then ⌊s⌋ - 1 else ⌊s⌋ := by
  refine Nearest.unique (nearest_spec d) ?_
  have h1 := Int.floor_le s
  have h2 := Int.lt_floor_add_one s
  have hd : d = s - 1 / 2 := by linarith
  split
  · rename_i h
    obtain ⟨h3, h4⟩ := h
    have e : d - (⌊s⌋ - 1 : Int) = 1 / 2 := by push_cast; linarith
    refine ⟨by rw [e, abs_of_nonneg (by norm_num)], fun _ => by omega⟩
  · rename_i h
    refine ⟨by rw [abs_le]; constructor <;> linarith, fun he => ?_⟩
    have h3 : s = ⌊s⌋ := by
      rcases abs_choice (d - ⌊s⌋) with e | e <;> rw [e] at he <;> linarith
    by_contra hne
    exact h ⟨h3, by omega⟩

theorem round_exact {d : ℚ} (hs : Double (d + 1 / 2)) : (F64.fin d).round = .fin (nearest d : ℚ) := by
  rw [round_of_sum (rn_fix hs.grid) hs, nearest_of_sum rfl]

theorem nearest_eq {d : ℚ} {n : Int} (h1 : (n : ℚ) - 1 / 2 < d) (h2 : d < n + 1 / 2) : nearest d = n := by
  refine Nearest.unique (nearest_spec d) ⟨by rw [abs_le]; constructor <;> linarith, fun h => ?_⟩
  rcases abs_choice (d - n) with e | e <;> rw [e] at h <;> linarith

/-- Sums which are not too large are finite. -/
theorem rn_double {q : ℚ} (h : |rn q| < 2 ^ 1024) : Double (rn q) := by
  by_cases h0 : rn q = 0
  · rw [h0]; exact ⟨0, 0, by norm_num, by norm_num, by norm_num, by simp⟩
  by_cases hq : q = 0
  · exact absurd (by subst hq; simp [rn, nearest]) h0
  refine double_of_grid ?_ h
  by_cases htop : |rn q| < 2 ^ (expo q + 53)
  · exact Grid.le (expo_lt h0 htop (expo_ge q)) (rn_grid q)
  · -- the next power of two
    have hle : |rn q| ≤ 2 ^ (expo q + 53) := by
      have hg : Grid (expo q) (2 ^ (expo q + 53)) := Grid.le (by omega) (Grid.pow _)
      have := lt_top q
      rw [abs_le] at this ⊢
      exact ⟨le_rn hg.neg this.1, rn_le hg this.2⟩
    have heq : |rn q| = 2 ^ (expo q + 53) := le_antisymm hle (not_lt.1 htop)
    have hex : expo (rn q) ≤ expo q + 1 := by
      refine expo_lt h0 ?_ (by have := expo_ge q; omega)
      rw [heq]
      exact zpow_lt_zpow_right₀ (by norm_num) (by omega)
    have hg : Grid (expo (rn q)) (2 ^ (expo q + 53)) := Grid.le (by omega) (Grid.pow _)
    rcases abs_choice (rn q) with e | e
    · rw [e] at heq; rw [← heq] at hg; exact hg
    · rw [e] at heq
      have := hg.neg
      rw [← heq, neg_neg] at this
      exact this

theorem lt_big {x : ℚ} (h : |x| ≤ 2 ^ 60) : |x| < 2 ^ 1024 :=
  lt_of_le_of_lt h (by exact pow_lt_pow_right₀ (by norm_num) (by norm_num))

/-- Between -1/4 and 0. -/
theorem round_neg {d : ℚ} (h1 : -(1 / 4) < d) (h2 : d < 0) : (F64.fin d).round = .fin (nearest d : ℚ) := by
  have hn : nearest d = 0 := nearest_eq (by push_cast; linarith) (by push_cast; linarith)
  have hx : expo (d + 1 / 2) ≤ -54 := by
    refine expo_lt (by linarith) ?_ (by norm_num)
    rw [abs_of_pos (by linarith)]
    norm_num
    linarith
  have g1 : Grid (expo (d + 1 / 2)) (1 / 4) := Grid.le (e := -2) (by omega) ⟨1, by norm_num⟩
  have g2 : Grid (expo (d + 1 / 2)) (1 / 2) := Grid.le (e := -1) (by omega) ⟨1, by norm_num⟩
  have b1 := le_rn g1 (by linarith)
  have b2 := rn_le g2 (by linarith)
  have hf : ⌊rn (d + 1 / 2)⌋ = 0 := Int.floor_eq_iff.2 ⟨by push_cast; linarith, by push_cast; linarith⟩
  rw [round_of_sum rfl (rn_double (lt_big (by rw [abs_of_nonneg (by linarith)]; linarith))), hn, hf, if_neg (by omega)]

/-- Between 0 and 1/2. -/
theorem round_small {d : ℚ} (h1 : 0 < d) (h2 : d < 1 / 2) : (F64.fin d).round = .fin (nearest d : ℚ) := by
  have hn : nearest d = 0 := nearest_eq (by push_cast; linarith) (by push_cast; linarith)
  have hx : expo (d + 1 / 2) ≤ -53 := by
    refine expo_lt (by linarith) ?_ (by norm_num)
    rw [abs_of_pos (by linarith)]
    norm_num
    linarith
  have g1 : Grid (expo (d + 1 / 2)) 1 := Grid.le (e := 0) (by omega) ⟨1, by norm_num⟩
  have g2 : Grid (expo (d + 1 / 2)) (1 / 2) := Grid.le (e := -1) (by omega) ⟨1, by norm_num⟩
  have b1 := le_rn g2 (by linarith)
  have b2 := rn_le g1 (by linarith)
  rw [round_of_sum rfl (rn_double (lt_big (by rw [abs_of_nonneg (by linarith)]; linarith))), hn]
  rcases lt_or_eq_of_le b2 with h | h
  · have hf : ⌊rn (d + 1 / 2)⌋ = 0 := Int.floor_eq_iff.2 ⟨by push_cast; linarith, by push_cast; linarith⟩
    rw [hf, if_neg (by omega)]
  · rw [h]
    simp

theorem round_pos {d : ℚ} (hd : Double d) (h1 : 1 / 2 ≤ d) (h2 : d < 2 ^ 52) (hne : d ≠ 1 / 2 + 1 / 2 ^ 53) :
    (F64.fin d).round = .fin (nearest d : ℚ) := by
  have hd0 : d ≠ 0 := by linarith
  have hpos : 0 < d := by linarith
  have hsp : 0 < d + 1 / 2 := by linarith
  have hed : expo d ≤ -1 := expo_lt hd0 (by rw [abs_of_pos hpos]; norm_num; linarith) (by norm_num)
  have hhalf : ∀ {e : Int}, e ≤ -1 → Grid e (1 / 2) := fun h => Grid.le h ⟨1, by norm_num⟩
  have hsg : Grid (expo d) (d + 1 / 2) := hd.grid.add (hhalf hed)
  by_cases hex : expo (d + 1 / 2) ≤ expo d
  · exact round_exact (double_of_grid (hsg.le hex) (lt_big (by
      rw [abs_of_pos hsp]; linarith [show (2 : ℚ) ^ 52 + 1 / 2 ≤ 2 ^ 60 by norm_num])))
  push Not at hex
  -- the power of two between `d` and the sum
  obtain ⟨k, hk⟩ : ∃ k, k = Int.log 2 |d| := ⟨_, rfl⟩
  have l1 := log_le hd0
  have l2 := lt_log d
  rw [← hk, abs_of_pos hpos] at l1 l2
  have hk1 : -1 ≤ k := by
    by_contra h
    have : (2 : ℚ) ^ (k + 1) ≤ 2 ^ (-1 : Int) := zpow_le_zpow_right₀ (by norm_num) (by omega)
    norm_num at this
    linarith
  have hedk : expo d = k - 52 := by unfold expo; rw [← hk]; omega
  have hN : (2 : ℚ) ^ (k + 1) ≤ d + 1 / 2 := by
    by_contra h
    push Not at h
    have : expo (d + 1 / 2) ≤ k - 52 := expo_lt (by linarith) (by
      rw [abs_of_pos hsp]
      refine lt_of_lt_of_le h (zpow_le_zpow_right₀ (by norm_num) (by omega))) (by omega)
    omega
  have hk2 : k ≤ 51 := by omega
  obtain ⟨N, hNe⟩ : ∃ N : Int, (2 : ℚ) ^ (k + 1) = N := by
    obtain ⟨n, hn⟩ : ∃ n : Nat, k + 1 = n := ⟨(k + 1).toNat, by omega⟩
    exact ⟨2 ^ n, by rw [hn]; push_cast; exact zpow_natCast 2 n⟩
  have hNe' := hNe
  rw [hNe] at hN l2
  have hNle : (N : ℚ) ≤ 2 ^ 52 := by
    rw [← hNe]
    calc (2 : ℚ) ^ (k + 1) ≤ 2 ^ (52 : Int) := zpow_le_zpow_right₀ (by norm_num) (by omega)
      _ = 2 ^ 52 := by norm_num
  have hN1 : (1 : ℚ) ≤ N := by
    rw [← hNe]
    calc (1 : ℚ) = 2 ^ (0 : Int) := by norm_num
      _ ≤ 2 ^ (k + 1) := zpow_le_zpow_right₀ (by norm_num) (by omega)
  rcases lt_or_eq_of_le hN with hN' | hN'
  · -- not a power of two
    have hk3 : k ≤ 50 := by
      by_contra h
      have hk51 : k = 51 := by omega
      have hg : Grid (-1) d := by rw [hk51] at hedk; rw [show (-1 : Int) = 51 - 52 by norm_num, ← hedk]; exact hd.grid
      obtain ⟨j, hj⟩ := hg
      rw [hk51] at hNe
      norm_num at hNe
      norm_num at hj
      have a1 : (j : ℚ) < 2 * N := by linarith
      have a2 : 2 * (N : ℚ) - 1 < j := by linarith
      have b1 : j < 2 * N := by exact_mod_cast a1
      have b2 : 2 * N - 1 < j := by exact_mod_cast a2
      omega
    have hes : expo (d + 1 / 2) ≤ k + 1 - 52 := by
      refine expo_lt (by linarith) ?_ (by omega)
      rw [abs_of_pos hsp]
      have : (2 : ℚ) ^ (k + 1 - 52 + 53) = 2 * N := by
        rw [← hNe, show k + 1 - 52 + 53 = 1 + (k + 1) by ring, zpow_add₀ two_ne]; norm_num
      rw [this]
      linarith
    have gN : Grid (expo (d + 1 / 2)) (N : ℚ) := Grid.int (by omega) N
    have gh : Grid (expo (d + 1 / 2)) (1 / 2) := hhalf (by omega)
    have b1 := le_rn gN hN
    have b2 := rn_le (gN.add gh) (by linarith)
    have hn : nearest d = N := nearest_eq (by linarith) (by linarith)
    have hf : ⌊rn (d + 1 / 2)⌋ = N := Int.floor_eq_iff.2 ⟨b1, by linarith⟩
    rw [round_of_sum rfl (rn_double (lt_big (by
      rw [abs_of_nonneg (by linarith)]; linarith [show (2 : ℚ) ^ 52 + 1 / 2 ≤ 2 ^ 60 by norm_num]))), hn, hf]
    rw [if_neg]
    rintro ⟨h3, h4⟩
    rcases lt_or_eq_of_le hk1 with h | h
    · obtain ⟨n, hn⟩ : ∃ n : Nat, k + 1 = n + 1 := ⟨k.toNat, by omega⟩
      have : N = 2 ^ n * 2 := by
        have : (N : ℚ) = ((2 ^ n * 2 : Int) : ℚ) := by
          rw [← hNe, hn, zpow_add₀ two_ne]
          push_cast
          rw [zpow_natCast]
        exact_mod_cast this
      omega
    · -- 1/2 < d < 1: not the double after 1/2, so the sum is not 1
      rw [← h] at hNe hedk
      norm_num at hNe
      have hg : Grid (-53) d := by rw [show (-53 : Int) = -1 - 52 by norm_num, ← hedk]; exact hd.grid
      obtain ⟨j, hj⟩ := hg
      rw [← h] at hes
      have hp53 : (2 : ℚ) ^ (-53 : Int) = 1 / 2 ^ 53 := by norm_num
      rw [hp53] at hj
      have a1 : (2 : ℚ) ^ 52 < j := by
        have : (1 : ℚ) / 2 < j * (1 / 2 ^ 53) := by rw [← hj]; rw [← hNe] at hN'; linarith
        have h2 : (2 : ℚ) ^ 52 = 1 / 2 * 2 ^ 53 := by norm_num
        rw [h2]
        have := mul_lt_mul_of_pos_right this (show (0 : ℚ) < 2 ^ 53 by norm_num)
        rwa [mul_assoc, one_div_mul_cancel (by norm_num), mul_one] at this
      have b1' : (2 : Int) ^ 52 < j := by exact_mod_cast a1
      have b2' : j ≠ 2 ^ 52 + 1 := by
        intro hj2
        apply hne
        rw [hj, hj2]
        norm_num
      have b3 : (2 : Int) ^ 52 + 2 ≤ j := by omega
      have b3' : (2 : ℚ) ^ 52 + 2 ≤ j := by exact_mod_cast b3
      have g : Grid (expo (d + 1 / 2)) (1 + 1 / 2 ^ 52) := Grid.le (e := -52) (by omega) ⟨2 ^ 52 + 1, by norm_num⟩
      have := le_rn g (by
        have : (1 : ℚ) + 1 / 2 ^ 52 = (2 ^ 52 + 2) * (1 / 2 ^ 53) + 1 / 2 := by norm_num
        rw [this, hj]
        have := mul_le_mul_of_nonneg_right b3' (show (0 : ℚ) ≤ 1 / 2 ^ 53 by norm_num)
        linarith)
      rw [← hNe] at h3
      rw [h3] at this
      norm_num at this
  · -- the sum is a power of two
    refine round_exact ?_
    rw [← hN']
    refine double_int ?_
    have : |(N : ℚ)| ≤ 2 ^ 53 := by rw [abs_of_pos (by linarith)]; linarith [show (2 : ℚ) ^ 52 ≤ 2 ^ 53 by norm_num]
    exact_mod_cast this

/-- Large doubles are integers; even ones stay. -/
theorem round_even {n : Int} (hd : Double (n : ℚ)) (h1 : 2 ^ 52 ≤ |n|) (he : n % 2 = 0) : (F64.fin n).round = .fin (n : ℚ) := by
  have hn0 : (n : ℚ) ≠ 0 := by
    intro h
    have : n = 0 := by exact_mod_cast h
    rw [this] at h1
    norm_num at h1
  have hs0 : (n : ℚ) + 1 / 2 ≠ 0 := by
    intro h
    have : (2 * n + 1 : Int) = (0 : Int) := by
      have : ((2 * n + 1 : Int) : ℚ) = ((0 : Int) : ℚ) := by push_cast; linarith
      exact_mod_cast this
    omega
  -- the sum is in the same binade, or the one below
  have hex : expo ((n : ℚ) + 1 / 2) ≤ expo n := by
    rcases lt_or_ge n 0 with h | h
    · refine expo_mono hs0 ?_
      have : (n : ℚ) ≤ -1 := by exact_mod_cast (by omega : n ≤ -1)
      rw [abs_of_neg (by linarith), abs_of_neg (by linarith)]
      linarith
    · have hnn : (0 : ℚ) ≤ n := by exact_mod_cast h
      have l := lt_log (n : ℚ)
      obtain ⟨k, hk⟩ : ∃ k, k = Int.log 2 |(n : ℚ)| := ⟨_, rfl⟩
      rw [← hk, abs_of_nonneg hnn] at l
      have hk0 : 0 ≤ k := by
        by_contra hlt
        have : (2 : ℚ) ^ (k + 1) ≤ 2 ^ (0 : Int) := zpow_le_zpow_right₀ (by norm_num) (by omega)
        rw [zpow_zero] at this
        have : (n : ℚ) < 1 := by linarith
        have : n < 1 := by exact_mod_cast this
        have : n = 0 := by omega
        exact hn0 (by exact_mod_cast this)
      obtain ⟨m, hm⟩ : ∃ m : Nat, k + 1 = m := ⟨(k + 1).toNat, by omega⟩
      rw [hm, zpow_natCast] at l
      have l' : n < 2 ^ m := by exact_mod_cast l
      have l2 : (n : ℚ) + 1 ≤ 2 ^ m := by exact_mod_cast (by omega : n + 1 ≤ 2 ^ m)
      have hge : -1074 ≤ k - 52 := by omega
      have : expo ((n : ℚ) + 1 / 2) ≤ k - 52 := by
        refine expo_lt hs0 ?_ hge
        rw [abs_of_pos (by linarith), show k - 52 + 53 = k + 1 by ring, hm, zpow_natCast]
        linarith
      refine this.trans ?_
      unfold expo
      omega
  have hg : Grid (expo ((n : ℚ) + 1 / 2)) (n : ℚ) := hd.grid.le hex
  have hlt : |(n : ℚ) + 1 / 2| < 2 ^ 1024 ∨ True := Or.inr trivial
  rcases lt_or_ge (expo ((n : ℚ) + 1 / 2)) 0 with h | h
  · -- exact
    have hg' : Grid (expo ((n : ℚ) + 1 / 2)) ((n : ℚ) + 1 / 2) := hg.add (Grid.le (e := -1) (by omega) ⟨1, by norm_num⟩)
    have hlt : |(n : ℚ) + 1 / 2| < 2 ^ 1024 := by
      refine lt_of_le_of_lt (lt_top _) ?_
      calc (2 : ℚ) ^ (expo ((n : ℚ) + 1 / 2) + 53) ≤ 2 ^ (60 : Int) := zpow_le_zpow_right₀ (by norm_num) (by omega)
        _ = 2 ^ 60 := by norm_num
        _ < 2 ^ 1024 := pow_lt_pow_right₀ (by norm_num) (by norm_num)
    rw [round_exact (double_of_grid hg' hlt), nearest_int]
  · have hrn : rn ((n : ℚ) + 1 / 2) = n := by
      obtain ⟨K, hK⟩ := hg.div
      have hu := ulp_pos ((n : ℚ) + 1 / 2)
      have hu1 : (1 : ℚ) ≤ ulp ((n : ℚ) + 1 / 2) := by
        unfold ulp
        calc (1 : ℚ) = 2 ^ (0 : Int) := by norm_num
          _ ≤ _ := zpow_le_zpow_right₀ (by norm_num) h
      have hnear : nearest (((n : ℚ) + 1 / 2) / ulp ((n : ℚ) + 1 / 2)) = K := by
        refine Nearest.unique (nearest_spec _) ?_
        have e : ((n : ℚ) + 1 / 2) / ulp ((n : ℚ) + 1 / 2) - K = 1 / 2 / ulp ((n : ℚ) + 1 / 2) := by
          rw [← hK, ulp]; ring
        have hp : 0 ≤ 1 / 2 / ulp ((n : ℚ) + 1 / 2) := div_nonneg (by norm_num) hu.le
        unfold Nearest
        rw [e, abs_of_nonneg hp]
        refine ⟨by rw [div_le_iff₀ hu]; linarith, fun he2 => ?_⟩
        have hu2 : ulp ((n : ℚ) + 1 / 2) = 1 := by
          rw [div_eq_iff hu.ne'] at he2
          linarith
        unfold ulp at hu2
        rw [hu2, div_one] at hK
        have : n = K := by exact_mod_cast hK
        omega
      unfold rn
      rw [hnear, ← hK]
      unfold ulp
      field_simp
    rw [round_of_sum hrn hd, Int.floor_intCast, if_neg (by omega)]

/-- Odd ones do not. -/
theorem round_odd {n : Int} (h1 : 2 ^ 52 < |n|) (h2 : |n| < 2 ^ 53) (ho : n % 2 = 1) : (F64.fin n).round = .fin ((n + 1 : Int) : ℚ) := by
  have hb : (2 : ℚ) ^ 52 ≤ |(n : ℚ) + 1 / 2| ∧ |(n : ℚ) + 1 / 2| < 2 ^ 53 := by
    rcases lt_or_ge n 0 with h | h
    · rw [abs_of_neg h] at h1 h2
      have a : (2 : ℚ) ^ 52 + 1 ≤ -n := by exact_mod_cast (by omega : (2 : Int) ^ 52 + 1 ≤ -n)
      have b : -(n : ℚ) < 2 ^ 53 := by exact_mod_cast h2
      rw [abs_of_neg (by linarith)]
      constructor <;> linarith
    · rw [abs_of_nonneg h] at h1 h2
      have a : (2 : ℚ) ^ 52 < n := by exact_mod_cast h1
      have b : (n : ℚ) + 1 ≤ 2 ^ 53 := by exact_mod_cast (by omega : n + 1 ≤ 2 ^ 53)
      rw [abs_of_pos (by linarith)]
      constructor <;> linarith
  have hlog : Int.log 2 |(n : ℚ) + 1 / 2| = 52 := by
    have hp : 0 < |(n : ℚ) + 1 / 2| := by linarith [hb.1]
    have a : Int.log 2 |(n : ℚ) + 1 / 2| < 53 := by
      rw [← Int.lt_zpow_iff_log_lt (by decide) hp]
      exact_mod_cast hb.2
    have b : 52 ≤ Int.log 2 |(n : ℚ) + 1 / 2| := by
      rw [← Int.zpow_le_iff_le_log (by decide) hp]
      exact_mod_cast hb.1
    omega
  have hu : ulp ((n : ℚ) + 1 / 2) = 1 := by unfold ulp expo; rw [hlog]; norm_num
  have hrn : rn ((n : ℚ) + 1 / 2) = ((n + 1 : Int) : ℚ) := by
    unfold rn
    rw [hu, div_one, mul_one]
    congr 1
    refine Nearest.unique (nearest_spec _) ?_
    have e : (n : ℚ) + 1 / 2 - ((n + 1 : Int) : ℚ) = -(1 / 2) := by push_cast; ring
    unfold Nearest
    rw [e, abs_neg, abs_of_nonneg (by norm_num)]
    exact ⟨le_refl _, fun _ => by omega⟩
  have hd : Double ((n + 1 : Int) : ℚ) := double_int (by rw [abs_lt] at h2; rw [abs_le]; omega)
  rw [round_of_sum hrn hd, Int.floor_intCast, if_neg (by omega)]

/-- The doubles that `round` gets wrong. -/
def Bad (d : ℚ) : Prop := d = 1 / 2 + 1 / 2 ^ 53 ∨ ∃ n : Int, d = n ∧ n % 2 = 1 ∧ 2 ^ 52 < |n| ∧ |n| < 2 ^ 53

theorem round_double {d : ℚ} (hd : Double d) (hb : ¬Bad d) : (F64.fin d).round = .fin (nearest d : ℚ) := by
  rcases lt_or_ge |d| (2 ^ 52) with h | h
  · rw [abs_lt] at h
    rcases lt_trichotomy d 0 with hd0 | hd0 | hd0
    · rcases lt_or_ge (-(1 / 4)) d with h4 | h4
      · exact round_neg h4 hd0
      · -- the sum is not larger than `d`
        by_cases hs0 : d + 1 / 2 = 0
        · exact round_exact (by rw [hs0]; exact ⟨0, 0, by norm_num, by norm_num, by norm_num, by simp⟩)
        have hle : |d + 1 / 2| ≤ |d| := by
          rw [abs_of_neg hd0, abs_le]
          constructor <;> linarith
        have hex := expo_mono hs0 hle
        have hed : expo d ≤ -1 := expo_lt hd0.ne (by rw [abs_of_neg hd0]; norm_num; linarith) (by norm_num)
        have hg : Grid (expo (d + 1 / 2)) (d + 1 / 2) :=
          (hd.grid.le hex).add (Grid.le (e := -1) (by omega) ⟨1, by norm_num⟩)
        exact round_exact (double_of_grid hg (lt_of_le_of_lt hle hd.lt))
    · subst hd0
      exact round_exact ⟨1, -1, by norm_num, by norm_num, by norm_num, by norm_num⟩
    · rcases lt_or_ge d (1 / 2) with h2 | h2
      · exact round_small hd0 h2
      · exact round_pos hd h2 h.2 (fun e => hb (Or.inl e))
  · have hd0 : d ≠ 0 := by rintro rfl; norm_num at h
    have hlog : 52 ≤ Int.log 2 |d| := by
      rw [← Int.zpow_le_iff_le_log (by decide) (abs_pos.2 hd0)]
      exact_mod_cast h
    have hex : 0 ≤ expo d := by unfold expo; omega
    obtain ⟨n, rfl⟩ : ∃ n : Int, d = n := by
      obtain ⟨n, hn⟩ := hd.grid.le hex
      exact ⟨n, by simpa using hn⟩
    have h' : 2 ^ 52 ≤ |n| := by exact_mod_cast h
    rw [nearest_int]
    rcases Int.emod_two_eq_zero_or_one n with he | ho
    · exact round_even hd h' he
    · exfalso
      refine hb (Or.inr ⟨n, rfl, ho, ?_, odd_lt hd ho⟩)
      rcases lt_or_eq_of_le h' with h | h
      · exact h
      · rcases abs_choice n with e | e <;> rw [e] at h <;> omega

end Rep.Dbl
