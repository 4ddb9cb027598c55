import Verif.Md5.Spec
import Mathlib.Analysis.SpecialFunctions.Exponential
import Mathlib.Analysis.Complex.Exponential
import Mathlib.Data.Nat.Cast.Field

/-
The table of sines.
-/

namespace Rep.Md5

open Finset

/-- The real and imaginary part of the exponential series of `k * I`. -/
theorem exp_series (k : ℝ) (n : Nat) :
    ∑ m ∈ range (2 * n), ((k : ℂ) * Complex.I) ^ m / (m.factorial : ℂ) =
      ((∑ j ∈ range n, (-1) ^ j * k ^ (2 * j) / ((2 * j).factorial : ℝ) : ℝ) : ℂ) +
      ((∑ j ∈ range n, (-1) ^ j * k ^ (2 * j + 1) / ((2 * j + 1).factorial : ℝ) : ℝ) : ℂ) * Complex.I := by
  induction n with
  | zero => simp
  | succ n ih =>
    rw [show 2 * (n + 1) = 2 * n + 1 + 1 by ring, sum_range_succ, sum_range_succ, ih, sum_range_succ, sum_range_succ]
    have h1 : ((k : ℂ) * Complex.I) ^ (2 * n) = (((-1) ^ n * k ^ (2 * n) : ℝ) : ℂ) := by
      rw [mul_pow, pow_mul Complex.I, Complex.I_sq]
      push_cast
      ring
    have h2 : ((k : ℂ) * Complex.I) ^ (2 * n + 1) = (((-1) ^ n * k ^ (2 * n + 1) : ℝ) : ℂ) * Complex.I := by
      rw [pow_succ, h1]
      push_cast
      ring
    rw [h1, h2]
    push_cast
    ring

theorem sin_series (k : Nat) (hk : k ≤ 64) :
    |Real.sin k - ∑ j ∈ range 128, (-1) ^ j * (k : ℝ) ^ (2 * j + 1) / ((2 * j + 1).factorial : ℝ)| ≤
      (64 : ℝ) ^ 256 / (256 : ℕ).factorial * 2 := by
  have hn : ‖((k : ℝ) : ℂ) * Complex.I‖ = k := by simp
  have hk' : (k : ℝ) ≤ 64 := by exact_mod_cast hk
  have h := Complex.exp_bound' (x := ((k : ℝ) : ℂ) * Complex.I) (n := 256) (by
    rw [hn]
    rw [div_le_iff₀ (by positivity)]
    have : ((Nat.succ 256 : ℕ) : ℝ) = 257 := by norm_num
    rw [this]
    linarith)
  rw [show (256 : ℕ) = 2 * 128 by rfl, exp_series, Complex.exp_mul_I] at h
  rw [← Complex.ofReal_sin, ← Complex.ofReal_cos] at h
  have him := (Complex.abs_im_le_norm _).trans h
  have e : ((((Real.cos k : ℝ) : ℂ) + ((Real.sin k : ℝ) : ℂ) * Complex.I) -
      (((∑ j ∈ range 128, (-1) ^ j * (k : ℝ) ^ (2 * j) / ((2 * j).factorial : ℝ) : ℝ) : ℂ) +
      ((∑ j ∈ range 128, (-1) ^ j * (k : ℝ) ^ (2 * j + 1) / ((2 * j + 1).factorial : ℝ) : ℝ) : ℂ) * Complex.I)).im =
      Real.sin k - ∑ j ∈ range 128, (-1) ^ j * (k : ℝ) ^ (2 * j + 1) / ((2 * j + 1).factorial : ℝ) := by
    simp only [Complex.sub_im, Complex.add_im, Complex.ofReal_im, Complex.mul_im, Complex.ofReal_re, Complex.I_im,
      Complex.I_re, mul_one, mul_zero, zero_add, add_zero]
  rw [e] at him
  refine him.trans ?_
  have : ‖((k : ℝ) : ℂ) * Complex.I‖ ^ (2 * 128) ≤ (64 : ℝ) ^ 256 := by
    rw [hn]
    exact pow_le_pow_left₀ (Nat.cast_nonneg k) hk' _
  have hf : (0 : ℝ) < ((256 : ℕ).factorial : ℝ) := by exact_mod_cast Nat.factorial_pos 256
  exact mul_le_mul_of_nonneg_right (div_le_div_of_nonneg_right this hf.le) (by norm_num)

def f255 : Nat := Nat.factorial 255

theorem f255_pos : 0 < f255 := Nat.factorial_pos 255

/-- The sum of the first `n` terms, times 255 factorial. -/
def num (k : Nat) : Nat → Int
  | 0 => 0
  | n + 1 => num k n + (-1) ^ n * (k : Int) ^ (2 * n + 1) * ((f255 / Nat.factorial (2 * n + 1) : Nat) : Int)

theorem num_spec (k : Nat) : ∀ n, n ≤ 128 →
    ((num k n : Int) : ℝ) = (∑ j ∈ range n, (-1) ^ j * (k : ℝ) ^ (2 * j + 1) / ((2 * j + 1).factorial : ℝ)) * (f255 : ℝ)
  | 0, _ => by rw [num, sum_range_zero, Int.cast_zero, zero_mul]
  | n + 1, h => by
    rw [num, sum_range_succ, add_mul, ← num_spec k n (by omega)]
    have hd : (2 * n + 1).factorial ∣ f255 := Nat.factorial_dvd_factorial (by omega)
    have h0 : ((2 * n + 1).factorial : ℝ) ≠ 0 := by exact_mod_cast (Nat.factorial_pos _).ne'
    have : ((f255 / Nat.factorial (2 * n + 1) : Nat) : ℝ) = (f255 : ℝ) / ((2 * n + 1).factorial : ℝ) :=
      Nat.cast_div hd h0
    rw [Int.cast_add, Int.cast_mul, Int.cast_natCast, this]
    push_cast
    ring

theorem eps : (64 : Nat) ^ 256 * 2 * 2 ^ 100 ≤ Nat.factorial 256 := by decide +kernel

/-- The sine of `k` lies between these bounds. -/
theorem sin_near (k : Nat) (hk : k ≤ 64) :
    |Real.sin k - (num k 128 : ℝ) / (f255 : ℝ)| ≤ 1 / 2 ^ 100 := by
  have h0 : (0 : ℝ) < (f255 : ℝ) := by exact_mod_cast f255_pos
  rw [num_spec k 128 le_rfl, mul_div_assoc, div_self h0.ne', mul_one]
  refine (sin_series k hk).trans ?_
  have h1 : (0 : ℝ) < (Nat.factorial 256 : ℝ) := by exact_mod_cast Nat.factorial_pos 256
  have h2 : ((64 : ℝ) ^ 256 * 2 * 2 ^ 100) ≤ (Nat.factorial 256 : ℝ) := by exact_mod_cast eps
  rw [le_div_iff₀ (by positivity), div_mul_eq_mul_div, div_mul_eq_mul_div, div_le_iff₀ h1, one_mul]
  exact h2

/-- A check in integers that decides the integer part. -/
def Near (k t : Nat) : Prop :=
  (f255) * (t * 2 ^ 68 + 1) ≤ 2 ^ 100 * (num k 128).natAbs ∧
  2 ^ 100 * (num k 128).natAbs + f255 < f255 * ((t + 1) * 2 ^ 68)

instance (k t : Nat) : Decidable (Near k t) := inferInstanceAs (Decidable (_ ∧ _))

theorem floor_sin {k t : Nat} (hk : k ≤ 64) (h : Near k t) : ⌊4294967296 * |Real.sin k|⌋ = (t : Int) := by
  have h0 : (0 : ℝ) < (f255 : ℝ) := by exact_mod_cast f255_pos
  have hs := sin_near k hk
  have ha : |(|Real.sin k| - ((num k 128).natAbs : ℝ) / (f255 : ℝ))| ≤ 1 / 2 ^ 100 := by
    have : ((num k 128).natAbs : ℝ) / (f255 : ℝ) = |(num k 128 : ℝ) / (f255 : ℝ)| := by
      rw [abs_div, abs_of_pos h0, Nat.cast_natAbs, Int.cast_abs]
    rw [this]
    exact (abs_abs_sub_abs_le _ _).trans hs
  obtain ⟨l, u⟩ := abs_le.mp ha
  obtain ⟨n1, n2⟩ := h
  have m1 : (f255 : ℝ) * (t * 2 ^ 68 + 1) ≤ 2 ^ 100 * ((num k 128).natAbs : ℝ) := by exact_mod_cast n1
  have m2 : 2 ^ 100 * ((num k 128).natAbs : ℝ) + (f255 : ℝ) < (f255 : ℝ) * ((t + 1) * 2 ^ 68) := by
    exact_mod_cast n2
  generalize ((num k 128).natAbs : ℝ) = N at *
  generalize (f255 : ℝ) = f at *
  have e1 : (t * 2 ^ 68 + 1 : ℝ) / 2 ^ 100 ≤ N / f := by
    rw [div_le_div_iff₀ (by positivity) h0]; linarith
  have e2 : N / f < ((t + 1) * 2 ^ 68 - 1 : ℝ) / 2 ^ 100 := by
    rw [div_lt_div_iff₀ h0 (by positivity)]; linarith
  rw [Int.floor_eq_iff]
  generalize N / f = x at *
  constructor
  · have : (t : ℝ) = 4294967296 * ((t * 2 ^ 68 + 1) / 2 ^ 100 - 1 / 2 ^ 100) := by ring
    push_cast
    rw [this]
    linarith
  · have : (t : ℝ) + 1 = 4294967296 * (((t + 1) * 2 ^ 68 - 1) / 2 ^ 100 + 1 / 2 ^ 100) := by ring
    push_cast
    rw [this]
    linarith

theorem T_eq {k t : Nat} (hk : k ≤ 64) (h : Near k t) : Rfc.T k = BitVec.ofNat 32 t := by
  unfold Rfc.T
  rw [floor_sin hk h]
  exact BitVec.ofInt_natCast 32 t

end Rep.Md5
