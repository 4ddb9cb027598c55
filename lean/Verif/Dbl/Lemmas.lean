import Verif.Dbl.Spec
import Mathlib.Tactic.Linarith
import Mathlib.Tactic.NormNum
import Mathlib.Tactic.Ring
import Mathlib.Tactic.FieldSimp
import Mathlib.Tactic.Positivity

namespace Rep.Dbl

open Spec

/-! ### Grids -/

/-- A multiple of 2^e. -/
def Grid (e : Int) (x : ℚ) : Prop := ∃ k : Int, x = k * 2 ^ e

theorem two_pos (e : Int) : (0 : ℚ) < 2 ^ e := zpow_pos (by norm_num) e

theorem two_ne : (2 : ℚ) ≠ 0 := by norm_num

theorem Grid.le {e f : Int} (h : f ≤ e) {x : ℚ} (g : Grid e x) : Grid f x := by
  obtain ⟨k, rfl⟩ := g
  refine ⟨k * 2 ^ (e - f).toNat, ?_⟩
  have : (2 : ℚ) ^ e = 2 ^ (e - f).toNat * 2 ^ f := by
    rw [← zpow_natCast, ← zpow_add₀ two_ne]
    congr 1
    omega
  rw [this]
  push_cast
  ring

theorem Grid.add {e : Int} {x y : ℚ} (g : Grid e x) (h : Grid e y) : Grid e (x + y) := by
  obtain ⟨k, rfl⟩ := g
  obtain ⟨l, rfl⟩ := h
  exact ⟨k + l, by push_cast; ring⟩

theorem Grid.neg {e : Int} {x : ℚ} (g : Grid e x) : Grid e (-x) := by
  obtain ⟨k, rfl⟩ := g
  exact ⟨-k, by push_cast; ring⟩

theorem Grid.sub {e : Int} {x y : ℚ} (g : Grid e x) (h : Grid e y) : Grid e (x - y) := by
  rw [sub_eq_add_neg]; exact g.add h.neg

theorem Grid.pow (e : Int) : Grid e (2 ^ e) := ⟨1, by simp⟩

theorem Grid.zero (e : Int) : Grid e 0 := ⟨0, by simp⟩

theorem Grid.int {e : Int} (he : e ≤ 0) (n : Int) : Grid e (n : ℚ) := Grid.le he ⟨n, by simp⟩

theorem Grid.div {e : Int} {x : ℚ} (g : Grid e x) : ∃ k : Int, x / 2 ^ e = k := by
  obtain ⟨k, rfl⟩ := g
  exact ⟨k, by field_simp⟩

/-! ### Rounding on the integers -/

theorem nearest_int (k : Int) : nearest (k : ℚ) = k := by simp [nearest]

theorem nearest_bounds (q : ℚ) : ⌊q⌋ ≤ nearest q ∧ nearest q ≤ ⌊q⌋ + 1 := by
  unfold nearest
  split <;> [skip; split <;> [skip; split]] <;> omega

theorem nearest_spec (q : ℚ) : Nearest q (nearest q) := by
  have h1 := Int.floor_le q
  have h2 := Int.lt_floor_add_one q
  unfold nearest Nearest
  split
  · rename_i h
    rw [abs_of_nonneg (by linarith)]
    exact ⟨by linarith, fun e => by linarith⟩
  split
  · rename_i h
    push_cast
    rw [abs_of_nonpos (by linarith)]
    exact ⟨by linarith, fun e => by linarith⟩
  have e : q - ⌊q⌋ = 1 / 2 := le_antisymm (by linarith) (by linarith)
  split
  · rename_i h
    rw [abs_of_nonneg (by linarith)]
    exact ⟨by linarith, fun _ => h⟩
  · rename_i h
    push_cast
    rw [abs_of_nonpos (by linarith)]
    exact ⟨by linarith, fun _ => by omega⟩

theorem Nearest.unique {q : ℚ} {m n : Int} (hm : Nearest q m) (hn : Nearest q n) : m = n := by
  obtain ⟨a, a'⟩ := hm
  obtain ⟨b, b'⟩ := hn
  rw [abs_le] at a b
  by_contra hne
  rcases lt_or_gt_of_ne hne with h | h
  · have h' : (m : ℚ) + 1 ≤ n := by exact_mod_cast h
    have e1 : q - m = 1 / 2 := by linarith [a.2, b.1]
    have e2 : q - n = -(1 / 2) := by linarith [a.2, b.1]
    have e3 : (n : ℚ) = m + 1 := by linarith
    have e4 : n = m + 1 := by exact_mod_cast e3
    have := a' (by rw [e1, abs_of_nonneg (by norm_num)])
    have := b' (by rw [e2, abs_neg, abs_of_nonneg (by norm_num)])
    omega
  · have h' : (n : ℚ) + 1 ≤ m := by exact_mod_cast h
    have e1 : q - n = 1 / 2 := by linarith [a.1, b.2]
    have e2 : q - m = -(1 / 2) := by linarith [a.1, b.2]
    have e3 : (m : ℚ) = n + 1 := by linarith
    have e4 : m = n + 1 := by exact_mod_cast e3
    have := b' (by rw [e1, abs_of_nonneg (by norm_num)])
    have := a' (by rw [e2, abs_neg, abs_of_nonneg (by norm_num)])
    omega

theorem nearest_mono {a b : ℚ} (h : a ≤ b) : nearest a ≤ nearest b := by
  by_contra hlt
  push Not at hlt
  have ⟨a1, a2⟩ := nearest_spec a
  have ⟨b1, b2⟩ := nearest_spec b
  rw [abs_le] at a1 b1
  have h' : (nearest b : ℚ) + 1 ≤ nearest a := by exact_mod_cast hlt
  have e : a = b := le_antisymm h (by linarith [a1.1, b1.2])
  subst e
  linarith

theorem le_nearest {k : Int} {q : ℚ} (h : (k : ℚ) ≤ q) : k ≤ nearest q := by
  have := nearest_mono h
  rwa [nearest_int] at this

theorem nearest_le {k : Int} {q : ℚ} (h : q ≤ k) : nearest q ≤ k := by
  have := nearest_mono h
  rwa [nearest_int] at this

theorem trunc_int (k : Int) : trunc (k : ℚ) = k := by simp [trunc]

theorem trunc_mono {a b : ℚ} (h : a ≤ b) : trunc a ≤ trunc b := by
  unfold trunc
  split
  · rw [if_pos (by linarith)]; exact Int.floor_le_floor h
  · rename_i ha
    push Not at ha
    split
    · rename_i hb
      exact le_trans (Int.ceil_le.2 (by push_cast; linarith)) (Int.floor_nonneg.2 hb)
    · exact Int.ceil_le_ceil h

theorem le_trunc {k : Int} {q : ℚ} (h : (k : ℚ) ≤ q) : k ≤ trunc q := by
  have := trunc_mono h
  rwa [trunc_int] at this

theorem trunc_le {k : Int} {q : ℚ} (h : q ≤ k) : trunc q ≤ k := by
  have := trunc_mono h
  rwa [trunc_int] at this

/-! ### Rounding to doubles -/

/-- The rounded values before they are found too large. -/
def rn (q : ℚ) : ℚ := nearest (q / ulp q) * ulp q
def rz (q : ℚ) : ℚ := trunc (q / ulp q) * ulp q

theorem rne_eq {q : ℚ} (h : |rn q| < 2 ^ 1024) : rne q = .fin (rn q) := if_pos h
theorem rtz_eq {q : ℚ} (h : |rz q| < 2 ^ 1024) : rtz q = .fin (rz q) := if_pos h

theorem ulp_pos (q : ℚ) : 0 < ulp q := two_pos _

theorem rn_fix {q : ℚ} (g : Grid (expo q) q) : rn q = q := by
  obtain ⟨k, hk⟩ := g.div
  unfold rn ulp
  rw [hk, nearest_int, ← hk]
  field_simp

theorem rz_fix {q : ℚ} (g : Grid (expo q) q) : rz q = q := by
  obtain ⟨k, hk⟩ := g.div
  unfold rz ulp
  rw [hk, trunc_int, ← hk]
  field_simp

theorem le_rn {q a : ℚ} (g : Grid (expo q) a) (h : a ≤ q) : a ≤ rn q := by
  obtain ⟨k, rfl⟩ := g
  have hu := ulp_pos q
  have : k ≤ nearest (q / ulp q) := le_nearest (by rw [le_div_iff₀ hu]; exact h)
  have : (k : ℚ) ≤ nearest (q / ulp q) := by exact_mod_cast this
  exact mul_le_mul_of_nonneg_right this hu.le

theorem rn_le {q b : ℚ} (g : Grid (expo q) b) (h : q ≤ b) : rn q ≤ b := by
  obtain ⟨k, rfl⟩ := g
  have hu := ulp_pos q
  have : nearest (q / ulp q) ≤ k := nearest_le (by rw [div_le_iff₀ hu]; exact h)
  have : (nearest (q / ulp q) : ℚ) ≤ k := by exact_mod_cast this
  exact mul_le_mul_of_nonneg_right this hu.le

theorem le_rz {q a : ℚ} (g : Grid (expo q) a) (h : a ≤ q) : a ≤ rz q := by
  obtain ⟨k, rfl⟩ := g
  have hu := ulp_pos q
  have : k ≤ trunc (q / ulp q) := le_trunc (by rw [le_div_iff₀ hu]; exact h)
  have : (k : ℚ) ≤ trunc (q / ulp q) := by exact_mod_cast this
  exact mul_le_mul_of_nonneg_right this hu.le

theorem rz_le {q b : ℚ} (g : Grid (expo q) b) (h : q ≤ b) : rz q ≤ b := by
  obtain ⟨k, rfl⟩ := g
  have hu := ulp_pos q
  have : trunc (q / ulp q) ≤ k := trunc_le (by rw [div_le_iff₀ hu]; exact h)
  have : (trunc (q / ulp q) : ℚ) ≤ k := by exact_mod_cast this
  exact mul_le_mul_of_nonneg_right this hu.le

theorem rn_grid (q : ℚ) : Grid (expo q) (rn q) := ⟨_, rfl⟩
theorem rz_grid (q : ℚ) : Grid (expo q) (rz q) := ⟨_, rfl⟩

theorem rz_nonneg {q : ℚ} (h : 0 ≤ q) : 0 ≤ rz q ∧ rz q ≤ q ∧ q < rz q + ulp q := by
  have hu := ulp_pos q
  have hq : 0 ≤ q / ulp q := div_nonneg h hu.le
  have e : trunc (q / ulp q) = ⌊q / ulp q⌋ := if_pos hq
  refine ⟨le_rz (Grid.zero _) h, ?_, ?_⟩
  · unfold rz
    rw [e, ← le_div_iff₀ hu]
    exact Int.floor_le _
  · unfold rz
    rw [e]
    have := Int.lt_floor_add_one (q / ulp q)
    rw [div_lt_iff₀ hu] at this
    linarith

theorem expo_neg (q : ℚ) : expo (-q) = expo q := by simp [expo]

theorem trunc_neg (q : ℚ) : trunc (-q) = -trunc q := by
  unfold trunc
  rcases lt_trichotomy q 0 with h | h | h
  · rw [if_pos (by linarith), if_neg (by linarith), Int.floor_neg]
  · subst h; simp
  · rw [if_neg (by linarith), if_pos (by linarith), Int.ceil_neg]

theorem rz_neg (q : ℚ) : rz (-q) = -rz q := by
  unfold rz ulp
  rw [expo_neg, neg_div, trunc_neg]
  push_cast
  ring

theorem expo_lt {q : ℚ} {k : Int} (h0 : q ≠ 0) (h : |q| < 2 ^ (k + 53)) (hk : -1074 ≤ k) : expo q ≤ k := by
  have hp : 0 < |q| := abs_pos.2 h0
  have : Int.log 2 |q| < k + 53 := by
    rw [← Int.lt_zpow_iff_log_lt (by decide) hp]
    exact_mod_cast h
  unfold expo
  omega

theorem expo_zero : expo 0 = -52 := by simp [expo]

theorem expo_ge (q : ℚ) : -1074 ≤ expo q := le_max_right _ _

theorem log_le {q : ℚ} (h0 : q ≠ 0) : (2 : ℚ) ^ Int.log 2 |q| ≤ |q| := by
  have := Int.zpow_log_le_self (b := 2) (by decide) (abs_pos.2 h0)
  exact_mod_cast this

theorem lt_log (q : ℚ) : |q| < (2 : ℚ) ^ (Int.log 2 |q| + 1) := by
  have := Int.lt_zpow_succ_log_self (b := 2) (by decide) |q|
  exact_mod_cast this

theorem ulp_le (q : ℚ) : ulp q ≤ |q| / 2 ^ 52 ∨ ulp q = 2 ^ (-1074 : Int) ∨ q = 0 := by
  by_cases h0 : q = 0
  · exact Or.inr (Or.inr h0)
  rcases le_total (Int.log 2 |q| - 52) (-1074) with h | h
  · right; left
    unfold ulp expo
    rw [max_eq_right h]
  · left
    unfold ulp expo
    rw [max_eq_left h, le_div_iff₀ (by positivity), show (2 : ℚ) ^ 52 = 2 ^ (52 : Int) by norm_num, ← zpow_add₀ two_ne]
    simpa using log_le h0

/-- Rounding does not leave the binade. -/
theorem lt_top (q : ℚ) : |q| ≤ 2 ^ (expo q + 53) := by
  by_cases h0 : q = 0
  · subst h0; rw [abs_zero]; exact (two_pos _).le
  refine (lt_log q).le.trans (zpow_le_zpow_right₀ (by norm_num) ?_)
  have : Int.log 2 |q| - 52 ≤ expo q := le_max_left _ _
  omega

/-- Doubles are on the grid of their last place. -/
theorem Spec.Double.grid {q : ℚ} (h : Double q) : Grid (expo q) q := by
  by_cases h0 : q = 0
  · subst h0; exact Grid.zero _
  obtain ⟨m, e, hm, he, _, rfl⟩ := h
  refine Grid.le (expo_lt h0 ?_ he) ⟨m, rfl⟩
  rw [abs_mul, abs_of_pos (two_pos e), add_comm, zpow_add₀ two_ne]
  have : |(m : ℚ)| < 2 ^ 53 := by exact_mod_cast hm
  have h53 : (2 : ℚ) ^ (53 : Int) = 2 ^ 53 := by norm_num
  rw [h53]
  exact mul_lt_mul_of_pos_right this (two_pos e)

theorem Spec.Double.lt {q : ℚ} (h : Double q) : |q| < 2 ^ 1024 := by
  obtain ⟨m, e, hm, _, he, rfl⟩ := h
  rw [abs_mul, abs_of_pos (two_pos e)]
  have h1 : |(m : ℚ)| < 2 ^ (53 : Int) := by
    have : |(m : ℚ)| < 2 ^ 53 := by exact_mod_cast hm
    exact_mod_cast this
  have h2 : (2 : ℚ) ^ e ≤ 2 ^ (971 : Int) := zpow_le_zpow_right₀ (by norm_num) he
  calc |(m : ℚ)| * 2 ^ e ≤ |(m : ℚ)| * 2 ^ (971 : Int) := mul_le_mul_of_nonneg_left h2 (abs_nonneg _)
    _ < 2 ^ (53 : Int) * 2 ^ (971 : Int) := mul_lt_mul_of_pos_right h1 (two_pos _)
    _ = 2 ^ (1024 : Int) := by rw [← zpow_add₀ two_ne]; rfl
    _ = 2 ^ 1024 := zpow_natCast 2 1024

/-- Numbers on their grid which are not too large are doubles. -/
theorem double_of_grid {q : ℚ} (g : Grid (expo q) q) (h : |q| < 2 ^ 1024) : Double q := by
  by_cases h0 : q = 0
  · exact ⟨0, 0, by norm_num, by norm_num, by norm_num, by simp [h0]⟩
  obtain ⟨k, hk⟩ := g
  have hlog : Int.log 2 |q| < 1024 := by
    rw [← Int.lt_zpow_iff_log_lt (by decide) (abs_pos.2 h0)]
    exact_mod_cast h
  refine ⟨k, expo q, ?_, expo_ge q, by unfold expo; omega, hk⟩
  have hlt := lt_log q
  have hle : (2 : ℚ) ^ (Int.log 2 |q| + 1) ≤ 2 ^ (expo q + 53) :=
    zpow_le_zpow_right₀ (by norm_num) (by have : Int.log 2 |q| - 52 ≤ expo q := le_max_left _ _; omega)
  have hq : |q| = |(k : ℚ)| * 2 ^ expo q := by
    conv_lhs => rw [hk]
    rw [abs_mul, abs_of_pos (two_pos _)]
  rw [add_comm (expo q), zpow_add₀ two_ne 53] at hle
  have : |(k : ℚ)| * 2 ^ expo q < 2 ^ (53 : Int) * 2 ^ expo q := by
    rw [← hq]
    exact lt_of_lt_of_le hlt hle
  have := lt_of_mul_lt_mul_right this (two_pos _).le
  have h53 : (2 : ℚ) ^ (53 : Int) = 2 ^ 53 := by norm_num
  rw [h53] at this
  exact_mod_cast this

theorem Spec.Double.rne {q : ℚ} (h : Double q) : Dbl.rne q = .fin q := by
  have := rn_fix h.grid
  rw [rne_eq (by rw [this]; exact h.lt), this]

theorem Spec.Double.rtz {q : ℚ} (h : Double q) : Dbl.rtz q = .fin q := by
  have := rz_fix h.grid
  rw [rtz_eq (by rw [this]; exact h.lt), this]

theorem double_int {n : Int} (h : |n| ≤ 2 ^ 53) : Double (n : ℚ) := by
  rcases lt_or_eq_of_le h with h | h
  · exact ⟨n, 0, h, by norm_num, by norm_num, by simp⟩
  · rcases abs_choice n with e | e
    · exact ⟨1, 53, by norm_num, by norm_num, by norm_num, by rw [e] at h; rw [h]; norm_num⟩
    · have : n = -2 ^ 53 := by omega
      exact ⟨-1, 53, by norm_num, by norm_num, by norm_num, by rw [this]; norm_num⟩

end Rep.Dbl
