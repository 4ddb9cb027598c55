import Verif.Dbl.TextModel
import Verif.Dbl.Sqrt
import Verif.Dbl.Convert
import Mathlib.Tactic.FieldSimp

/-
C114: inexact numbers written and read again.
-/

namespace Rep.Dbl.Spec

/-- A decimal number of at most `p` digits, with any exponent. -/
def Decimal (p : Nat) (v : ℚ) : Prop := ∃ k e : Int, |k| < 10 ^ p ∧ v = k * 10 ^ e

/-- No decimal number of `p` digits is nearer to `q` than `v`. -/
def NearestDecimal (p : Nat) (q v : ℚ) : Prop := Decimal p v ∧ ∀ w, Decimal p w → |v - q| ≤ |w - q|

end Rep.Dbl.Spec

namespace Rep.Dbl

open Spec
open Rep.NumText (digitChar natDigits)

/-! ### Digits -/

def Digits (s : List Char) : Prop := ∀ c ∈ s, isDigit c = true

theorem digitChar_ten : ∀ d, d < 10 → isDigit (digitChar d) = true ∧ (digitChar d).toNat - 48 = d := by decide

theorem valD_go (s : List Char) : ∀ v, s.foldl (fun v c => v * 10 + (c.toNat - 48)) v = v * 10 ^ s.length + valD s := by
  induction s with
  | nil => intro v; simp [valD]
  | cons c s ih =>
    intro v
    have h1 := ih (v * 10 + (c.toNat - 48))
    have h2 := ih (0 * 10 + (c.toNat - 48))
    simp only [List.foldl_cons, valD, List.length_cons] at *
    rw [h1, h2]
    ring

theorem valD_append (a b : List Char) : valD (a ++ b) = valD a * 10 ^ b.length + valD b := by
  have : valD (a ++ b) = b.foldl (fun v c => v * 10 + (c.toNat - 48)) (valD a) := by simp [valD, List.foldl_append]
  rw [this, valD_go]

theorem valD_zeros (n : Nat) : valD (List.replicate n '0') = 0 := by
  induction n with
  | zero => rfl
  | succ n ih =>
    rw [List.replicate_succ', valD_append, ih]
    simp [valD]

theorem digitsW_spec (p : Nat) : ∀ k, (digitsW p k).length = p ∧ Digits (digitsW p k) ∧ valD (digitsW p k) = k % 10 ^ p := by
  induction p with
  | zero => intro k; refine ⟨rfl, ?_, ?_⟩
            · intro c hc; cases hc
            · simp [digitsW, valD]; omega
  | succ p ih =>
    intro k
    obtain ⟨h1, h2, h3⟩ := ih (k / 10)
    obtain ⟨d1, d2⟩ := digitChar_ten (k % 10) (by omega)
    refine ⟨by simp [digitsW, h1], ?_, ?_⟩
    · intro c hc
      simp only [digitsW, List.mem_append, List.mem_singleton] at hc
      rcases hc with hc | hc
      · exact h2 c hc
      · rw [hc]; exact d1
    · rw [digitsW, valD_append, h3]
      have : valD [digitChar (k % 10)] = k % 10 := by simp [valD, d2]
      rw [this, pow_succ, Nat.mul_comm (10 ^ p) 10, Nat.mod_mul]
      simp [Nat.mul_comm, Nat.add_comm]

theorem natDigits_ten (n : Nat) : natDigits 10 n ≠ [] ∧ Digits (natDigits 10 n) ∧ valD (natDigits 10 n) = n := by
  induction n using Nat.strongRecOn with
  | _ n ih =>
    unfold natDigits
    split
    · rename_i h
      obtain ⟨h1, h2, h3⟩ := ih (n / 10) (by omega)
      obtain ⟨d1, d2⟩ := digitChar_ten (n % 10) (by omega)
      refine ⟨by simp, ?_, ?_⟩
      · intro c hc
        simp only [List.mem_append, List.mem_singleton] at hc
        rcases hc with hc | hc
        · exact h2 c hc
        · rw [hc]; exact d1
      · rw [valD_append, h3]
        have : valD [digitChar (n % 10)] = n % 10 := by simp [valD, d2]
        rw [this]
        simp only [List.length_singleton, pow_one]
        omega
    · rename_i h
      obtain ⟨d1, d2⟩ := digitChar_ten n (by omega)
      refine ⟨by simp, ?_, by simp [valD, d2]⟩
      intro c hc
      rw [List.mem_singleton.1 hc]; exact d1

theorem strip_spec (s : List Char) : ∃ n, s = strip s ++ List.replicate n '0' := by
  have hz : ∀ l : List Char, (∀ c ∈ l, (c == '0') = true) → l = List.replicate l.length '0' := by
    intro l hl
    exact List.eq_replicate_iff.2 ⟨rfl, fun c hc => by simpa using hl c hc⟩
  refine ⟨(s.reverse.takeWhile (· == '0')).length, ?_⟩
  have h := List.takeWhile_append_dropWhile (p := (· == '0')) (l := s.reverse)
  have h2 := congrArg List.reverse h
  rw [List.reverse_append, List.reverse_reverse] at h2
  have h3 := hz (s.reverse.takeWhile (· == '0')) (fun c hc => by
    have := List.all_takeWhile (p := (· == '0')) (l := s.reverse)
    exact List.all_eq_true.1 this c hc)
  unfold strip
  rw [← List.reverse_replicate, ← h3]
  exact h2.symm

theorem digits_takeWhile {s t : List Char} (hs : Digits s) (ht : ∀ c, t.head? = some c → isDigit c = false) :
    (s ++ t).takeWhile isDigit = s ∧ (s ++ t).dropWhile isDigit = t := by
  have h1 : t.takeWhile isDigit = [] := by
    cases t with
    | nil => rfl
    | cons c t => simp [ht c rfl]
  have h2 : t.dropWhile isDigit = t := by
    cases t with
    | nil => rfl
    | cons c t => simp [ht c rfl]
  exact ⟨by rw [List.takeWhile_append_of_pos hs, h1, List.append_nil], by rw [List.dropWhile_append_of_pos hs, h2]⟩

/-! ### The scanner on printed text -/

theorem scanExp_text (x : Int) : scanExp (expText x) = (x, []) := by
  obtain ⟨h1, h2, h3⟩ := natDigits_ten x.natAbs
  have hd : Digits ((if x.natAbs < 10 then ['0'] else []) ++ natDigits 10 x.natAbs) := by
    intro c hc
    rcases List.mem_append.1 hc with hc | hc
    · split at hc
      · rw [List.mem_singleton.1 hc]; decide
      · cases hc
    · exact h2 c hc
  have hv : valD ((if x.natAbs < 10 then ['0'] else []) ++ natDigits 10 x.natAbs) = x.natAbs := by
    rw [valD_append, h3]
    split <;> simp [valD]
  have hne : (if x.natAbs < 10 then ['0'] else []) ++ natDigits 10 x.natAbs ≠ [] := by simp [h1]
  unfold expText
  generalize (if x.natAbs < 10 then ['0'] else []) ++ natDigits 10 x.natAbs = u at *
  have ht := digits_takeWhile (t := []) hd (by simp)
  rw [List.append_nil] at ht
  by_cases hx : x < 0
  · simp only [scanExp, hx, if_true, List.head?_cons, List.tail_cons]
    simp only [ht, hne, hv, true_or, if_true, beq_self_eq_true, Bool.true_or, if_false]
    simp only [Prod.mk.injEq, and_true]
    omega
  · simp only [scanExp, hx, if_false, List.head?_cons, List.tail_cons]
    have hb : ((some '+' : Option Char) == some '-') = false := by decide
    simp only [ht, hne, hv, true_or, if_true, beq_self_eq_true, Bool.or_true, if_false, hb, Bool.false_eq_true]
    simp only [Prod.mk.injEq, and_true]
    omega

theorem scanDec_plain {i f e : List Char} {x : Int} (hi : Digits i) (hn : i ≠ []) (hf : Digits f)
    (he : (e = [] ∧ x = 0) ∨ e = expText x) :
    scanDec (i ++ point f ++ e) = some ((valD (i ++ f) : ℚ) * 10 ^ (x - f.length), []) := by
  have hex : scanExp e = (x, []) := by
    rcases he with ⟨h1, h2⟩ | h
    · subst h1 h2; rfl
    · rw [h]; exact scanExp_text x
  have hed : ∀ c, e.head? = some c → c = 'e' := by
    intro c hc
    rcases he with ⟨h1, _⟩ | h
    · rw [h1] at hc; cases hc
    · rw [h] at hc; simp only [expText, List.head?_cons, Option.some.injEq] at hc; exact hc.symm
  have hed' : ∀ c, e.head? = some c → isDigit c = false := by
    intro c hc; rw [hed c hc]; decide
  by_cases h0 : f = []
  · subst h0
    have ht := digits_takeWhile hi hed'
    have hsf : scanFrac e = ([], e) := by
      unfold scanFrac
      split
      · rename_i t
        have := hed '.' rfl
        exact absurd this (by decide)
      · rfl
    simp only [point, if_true, List.append_nil]
    simp [scanDec, ht, hsf, hn, hex]
  · have ht := digits_takeWhile (t := '.' :: (f ++ e)) hi (by simp; decide)
    have ht2 := digits_takeWhile hf hed'
    have htext : i ++ point f ++ e = i ++ '.' :: (f ++ e) := by simp [point, h0]
    rw [htext]
    simp [scanDec, ht, scanFrac, ht2, hn, hex]

theorem scanDec_point {i : List Char} (hi : Digits i) (hn : i ≠ []) :
    scanDec (i ++ ['.']) = some ((valD i : ℚ), []) := by
  have ht := digits_takeWhile (t := ['.']) hi (by simp; decide)
  simp [scanDec, ht, scanFrac, hn, scanExp]

/-- Zeros at the end of the fraction don't matter. -/
theorem strip_value (i g : List Char) (x : Int) :
    (valD (i ++ strip g) : ℚ) * 10 ^ (x - (strip g).length) = valD (i ++ g) * 10 ^ (x - g.length) := by
  obtain ⟨n, hn⟩ := strip_spec g
  have h1 : valD (i ++ g) = valD (i ++ strip g) * 10 ^ n := by
    conv_lhs => rw [hn, ← List.append_assoc, valD_append, valD_zeros]
    simp
  have h2 : (g.length : Int) = (strip g).length + n := by
    conv_lhs => rw [hn]
    simp
  rw [h1, h2]
  have : (x - ((strip g).length + n : Int)) = (x - (strip g).length) - n := by ring
  rw [this, zpow_sub₀ (by norm_num) (x - (strip g).length) n]
  push_cast
  rw [zpow_natCast]
  field_simp

/-- What a text consists of: digits, and a fraction with an exponent. -/
theorem gText_shape (p k : Nat) (x : Int) (hp : 1 ≤ p) (hk : k < 10 ^ p) :
    ∃ i f e y, gText p k x = i ++ point f ++ e ∧ Digits i ∧ i ≠ [] ∧ Digits f ∧ ((e = [] ∧ y = 0) ∨ e = expText y) ∧
      (valD (i ++ f) : ℚ) * 10 ^ (y - f.length) = k * 10 ^ (x - p + 1) := by
  obtain ⟨h1, h2, h3⟩ := digitsW_spec p k
  rw [Nat.mod_eq_of_lt hk] at h3
  have hstrip : ∀ g, Digits g → Digits (strip g) := by
    intro g hg c hc
    obtain ⟨n, hn⟩ := strip_spec g
    exact hg c (by rw [hn]; exact List.mem_append_left _ hc)
  have htake : ∀ n, Digits ((digitsW p k).take n) := fun n c hc => h2 c (List.mem_of_mem_take hc)
  have hdrop : ∀ n, Digits ((digitsW p k).drop n) := fun n c hc => h2 c (List.mem_of_mem_drop hc)
  have hne : ∀ n, (digitsW p k).take (n + 1) ≠ [] := by
    intro n h
    have := congrArg List.length h
    simp only [List.length_take, h1, List.length_nil] at this
    omega
  unfold gText
  split
  · refine ⟨(digitsW p k).take 1, strip ((digitsW p k).drop 1), expText x, x, rfl, htake 1, hne 0, hstrip _ (hdrop 1), Or.inr rfl, ?_⟩
    rw [strip_value, List.take_append_drop, h3, List.length_drop, h1]
    congr 2
    omega
  · rename_i hc
    split
    · rename_i h0
      refine ⟨(digitsW p k).take (x.toNat + 1), strip ((digitsW p k).drop (x.toNat + 1)), [], 0, by simp, htake _, hne _, hstrip _ (hdrop _),
        Or.inl ⟨rfl, rfl⟩, ?_⟩
      rw [strip_value, List.take_append_drop, h3, List.length_drop, h1]
      congr 2
      omega
    · rename_i h0
      refine ⟨['0'], strip (List.replicate (-x - 1).toNat '0' ++ digitsW p k), [], 0, by simp, ?_, by simp, hstrip _ ?_,
        Or.inl ⟨rfl, rfl⟩, ?_⟩
      · intro c hc; rw [List.mem_singleton.1 hc]; decide
      · intro c hc
        rcases List.mem_append.1 hc with hc | hc
        · rw [(List.mem_replicate.1 hc).2]; decide
        · exact h2 c hc
      · rw [strip_value, valD_append, valD_append, valD_zeros, h3]
        have : valD ['0'] = 0 := by decide
        rw [this]
        simp only [List.length_append, List.length_replicate, h1, Nat.zero_mul, Nat.zero_add]
        congr 2
        push_cast
        omega

/-! ### The nearest decimal -/

theorem nearest_best (q : ℚ) (j : Int) : |(nearest q : ℚ) - q| ≤ |(j : ℚ) - q| := by
  by_cases h : j = nearest q
  · rw [h]
  · have h1 := (nearest_spec q).1
    rw [abs_sub_comm]
    rcases lt_or_gt_of_ne h with h | h
    · have : (j : ℚ) + 1 ≤ nearest q := by exact_mod_cast h
      have := abs_le.1 h1
      refine le_trans h1 (le_trans ?_ (neg_le_abs _))
      linarith
    · have : (nearest q : ℚ) + 1 ≤ j := by exact_mod_cast h
      have := abs_le.1 h1
      refine le_trans h1 (le_trans ?_ (le_abs_self _))
      linarith

theorem ten_pos (e : Int) : (0 : ℚ) < 10 ^ e := zpow_pos (by norm_num) e

theorem sci_spec (p : Nat) (hp : 1 ≤ p) (q : ℚ) (h0 : q ≠ 0) :
    (sci p q).1 < 10 ^ p ∧ NearestDecimal p |q| ((sci p q).1 * 10 ^ ((sci p q).2 - p + 1)) := by
  have hq : 0 < |q| := abs_pos.2 h0
  set x := Int.log 10 |q| with hx
  set u : ℚ := 10 ^ (x - p + 1) with hu
  have hup : 0 < u := ten_pos _
  have hlo : (10 : ℚ) ^ x ≤ |q| := by exact_mod_cast Int.zpow_log_le_self (b := 10) (by norm_num) hq
  have hhi : |q| < (10 : ℚ) ^ (x + 1) := by exact_mod_cast Int.lt_zpow_succ_log_self (b := 10) (by norm_num) |q|
  have hxu : (10 : ℚ) ^ x = ((10 ^ (p - 1) : Int) : ℚ) * u := by
    push_cast
    rw [hu, ← zpow_natCast, ← zpow_add₀ (by norm_num)]
    congr 1
    omega
  have hxu1 : (10 : ℚ) ^ (x + 1) = ((10 ^ p : Int) : ℚ) * u := by
    push_cast
    rw [hu, ← zpow_natCast, ← zpow_add₀ (by norm_num)]
    congr 1
    omega
  set n := nearest (|q| / u) with hn
  have hnlo : (10 ^ (p - 1) : Int) ≤ n := le_nearest (by rw [le_div_iff₀ hup, ← hxu]; exact hlo)
  have hnhi : n ≤ (10 ^ p : Int) := nearest_le (by rw [div_le_iff₀ hup, ← hxu1]; exact hhi.le)
  have hn0 : 0 ≤ n := le_trans (by positivity) hnlo
  have hbest : ∀ j : Int, abs ((n : ℚ) * u - |q|) ≤ abs ((j : ℚ) * u - |q|) := by
    intro j
    have := nearest_best (|q| / u) j
    have e : ∀ m : Int, abs ((m : ℚ) * u - |q|) = |(m : ℚ) - |q| / u| * u := by
      intro m
      rw [← abs_of_pos hup, ← abs_mul, abs_of_pos hup]
      congr 1
      field_simp
    rw [e, e]
    exact mul_le_mul_of_nonneg_right this hup.le
  have hall : ∀ w, Decimal p w → abs ((n : ℚ) * u - |q|) ≤ abs (w - |q|) := by
    rintro w ⟨j, e, hj, rfl⟩
    by_cases he : x - p + 1 ≤ e
    · obtain ⟨m, hm⟩ := Int.eq_ofNat_of_zero_le (show 0 ≤ e - (x - p + 1) by omega)
      have : (j : ℚ) * 10 ^ e = ((j * 10 ^ m : Int) : ℚ) * u := by
        have : e = m + (x - p + 1) := by omega
        rw [this, zpow_add₀ (by norm_num), zpow_natCast]
        push_cast
        ring
      rw [this]
      exact hbest _
    · refine le_trans (hbest (10 ^ (p - 1))) ?_
      rw [← hxu]
      have hj' : (j : ℚ) < 10 ^ p := by exact_mod_cast (abs_lt.1 hj).2
      have hw : (j : ℚ) * 10 ^ e ≤ 10 ^ x := by
        have h1 : (j : ℚ) * 10 ^ e ≤ (10 : ℚ) ^ p * 10 ^ e := mul_le_mul_of_nonneg_right hj'.le (ten_pos e).le
        refine le_trans h1 ?_
        rw [← zpow_natCast, ← zpow_add₀ (by norm_num)]
        exact zpow_le_zpow_right₀ (by norm_num) (by omega)
      have ha : abs ((10 : ℚ) ^ x - |q|) = |q| - 10 ^ x := by
        rw [abs_sub_comm]
        exact abs_of_nonneg (by linarith)
      rw [ha]
      refine le_trans ?_ (neg_le_abs _)
      linarith
  have hnat : ((n.toNat : Nat) : ℚ) = n := by
    have : ((n.toNat : Nat) : Int) = n := Int.toNat_of_nonneg hn0
    exact_mod_cast this
  have hsci : sci p q = if n.toNat = 10 ^ p then (10 ^ (p - 1), x + 1) else (n.toNat, x) := rfl
  by_cases hc : n.toNat = 10 ^ p
  · rw [hsci, if_pos hc]
    have hv : ((10 ^ (p - 1) : Nat) : ℚ) * 10 ^ (x + 1 - p + 1) = (n : ℚ) * u := by
      have : (n : ℚ) = 10 ^ p := by rw [← hnat, hc]; push_cast; rfl
      rw [this, hu]
      push_cast
      rw [← zpow_natCast, ← zpow_natCast, ← zpow_add₀ (by norm_num), ← zpow_add₀ (by norm_num)]
      congr 1
      omega
    refine ⟨Nat.pow_lt_pow_right (by norm_num) (by omega), ⟨10 ^ (p - 1), x + 1 - p + 1, ?_, by push_cast; rfl⟩, ?_⟩
    · rw [abs_of_nonneg (by positivity)]
      exact pow_lt_pow_right₀ (by norm_num) (by omega)
    · show ∀ w, Decimal p w → abs (((10 ^ (p - 1) : Nat) : ℚ) * 10 ^ (x + 1 - p + 1) - |q|) ≤ abs (w - |q|)
      rw [hv]
      exact hall
  · rw [hsci, if_neg hc]
    have hlt : n.toNat < 10 ^ p := by
      have : ((n.toNat : Nat) : Int) ≤ ((10 ^ p : Nat) : Int) := by rw [Int.toNat_of_nonneg hn0]; push_cast; exact hnhi
      have : n.toNat ≤ 10 ^ p := by exact_mod_cast this
      omega
    refine ⟨hlt, ⟨n, x - p + 1, ?_, by rw [hnat]⟩, ?_⟩
    · rw [abs_of_nonneg hn0, ← Int.toNat_of_nonneg hn0]
      exact_mod_cast hlt
    · show ∀ w, Decimal p w → abs (((n.toNat : Nat) : ℚ) * 10 ^ (x - p + 1) - |q|) ≤ abs (w - |q|)
      rw [hnat]
      exact hall

/-! ### Reading -/

def OkChar (c : Char) : Prop := isDigit c = true ∨ c = '.' ∨ c = 'e' ∨ c = '+' ∨ c = '-'

theorem okChar_ne {c : Char} (h : OkChar c) : c ≠ '/' ∧ c ≠ '\x00' := by
  rcases h with h | h | h | h | h
  · refine ⟨?_, ?_⟩ <;> rintro rfl <;> revert h <;> decide
  all_goals subst h; decide

theorem cString_ok {s : List Char} (h : ∀ c ∈ s, OkChar c) : Rep.NumText.cString s = s := by
  unfold Rep.NumText.cString
  have := List.takeWhile_append_of_pos (p := fun c => decide (c ≠ '\x00')) (l₁ := s) (l₂ := [])
    (fun c hc => by simpa using (okChar_ne (h c hc)).2)
  simpa using this

theorem strtod_digit {c : Char} (h : isDigit c = true) (s : List Char) :
    strtod (c :: s) = (scanDec (c :: s)).map fun r => (rne r.1, r.2) := by
  have hb : 48 ≤ c.toNat ∧ c.toNat ≤ 57 := by simpa [isDigit] using h
  have hsp : Rep.NumText.isspace c = false := by
    unfold Rep.NumText.isspace
    simp
    omega
  have hm : c ≠ '-' := by rintro rfl; revert h; decide
  have hpl : c ≠ '+' := by rintro rfl; revert h; decide
  have hi : c ≠ 'i' := by rintro rfl; revert h; decide
  have hn : c ≠ 'n' := by rintro rfl; revert h; decide
  have h1 : "inf".toList.isPrefixOf (c :: s) = false := by
    show ('i' :: ['n', 'f']).isPrefixOf (c :: s) = false
    simp [List.isPrefixOf, hi.symm]
  have h2 : "nan".toList.isPrefixOf (c :: s) = false := by
    show ('n' :: ['a', 'n']).isPrefixOf (c :: s) = false
    simp [List.isPrefixOf, hn.symm]
  have hd : (c :: s).dropWhile Rep.NumText.isspace = c :: s := by simp [hsp]
  have hm' : ((c :: s).head? == some '-') = false := by simpa using hm
  have hp' : ((c :: s).head? == some '+') = false := by simpa using hpl
  unfold strtod
  simp only [hd, hm', hp', Bool.or_self, Bool.false_eq_true, if_false, h1, h2]

/-- Reading a text which starts with a digit, perhaps after a minus sign. -/
theorem read_text {i t : List Char} {v : ℚ} (neg : Bool) (hi : Digits i) (hn : i ≠ []) (ht : ∀ c ∈ t, OkChar c)
    (hp : '.' ∈ t ∨ 'e' ∈ t) (hv : scanDec (i ++ t) = some (v, [])) :
    stringToFloat ((if neg then ['-'] else []) ++ (i ++ t)) = some (if neg then (rne v).neg else rne v) := by
  have hok : ∀ c ∈ i ++ t, OkChar c := by
    intro c hc
    rcases List.mem_append.1 hc with hc | hc
    · exact Or.inl (hi c hc)
    · exact ht c hc
  have hs : Rep.NumText.sign ((if neg then ['-'] else []) ++ (i ++ t)) = (neg, i ++ t) := by
    cases neg with
    | true => rfl
    | false =>
      cases i with
      | nil => exact absurd rfl hn
      | cons c i =>
        have hc := hi c (by simp)
        have hm : c ≠ '-' := by rintro rfl; revert hc; decide
        have hpl : c ≠ '+' := by rintro rfl; revert hc; decide
        show Rep.NumText.sign (c :: (i ++ t)) = (false, c :: (i ++ t))
        unfold Rep.NumText.sign
        split
        · rename_i h; exact absurd (List.cons.inj h).1 hm
        · rename_i h; exact absurd (List.cons.inj h).1 hpl
        · rfl
  have hcs := cString_ok hok
  have hsl : '/' ∉ i ++ t := fun h => (okChar_ne (hok _ h)).1 rfl
  have hpar : Rep.NumText.parse ((if neg then ['-'] else []) ++ (i ++ t)) 10 = .float := by
    unfold Rep.NumText.parse
    simp only [hs, hcs]
    rw [if_neg hsl, if_pos]
    refine ⟨trivial, ?_⟩
    rcases hp with h | h
    · exact Or.inl (List.mem_append_right _ h)
    · exact Or.inr (Or.inl (List.mem_append_right _ h))
  have hst : strtod (i ++ t) = some (rne v, []) := by
    cases i with
    | nil => exact absurd rfl hn
    | cons c i =>
      rw [List.cons_append, strtod_digit (hi c (by simp)), ← List.cons_append, hv]
      rfl
  unfold stringToFloat
  simp only [hpar, hs, hst]

theorem rn_neg (q : ℚ) : rne (-q) = (rne q).neg := by
  have hu : ulp (-q) = ulp q := by simp [ulp, expo_neg]
  have hnn : nearest (-q / ulp q) = -nearest (q / ulp q) := by
    refine Nearest.unique (nearest_spec _) ?_
    obtain ⟨h1, h2⟩ := nearest_spec (q / ulp q)
    have e : -q / ulp q - ((-nearest (q / ulp q) : Int) : ℚ) = -(q / ulp q - nearest (q / ulp q)) := by
      push_cast; ring
    refine ⟨by rw [e, abs_neg]; exact h1, fun h => ?_⟩
    rw [e, abs_neg] at h
    have := h2 h
    omega
  have he : ((-nearest (q / ulp q) : Int) : ℚ) * ulp q = -(nearest (q / ulp q) * ulp q) := by push_cast; ring
  unfold rne
  rw [hu, hnn, he]
  generalize (nearest (q / ulp q) : ℚ) * ulp q = w
  unfold pack
  rw [abs_neg]
  by_cases hw : |w| < 2 ^ 1024
  · rw [if_pos hw, if_pos hw]; rfl
  · rw [if_neg hw, if_neg hw]
    have h0 : w ≠ 0 := by
      rintro rfl
      exact hw (by simp)
    show F64.inf _ = F64.inf _
    congr 1
    rcases lt_or_gt_of_ne h0 with h | h
    · simp [h, h.le]
    · simp [h, h.le]

theorem NearestDecimal.neg {p : Nat} {q v : ℚ} (h : NearestDecimal p q v) : NearestDecimal p (-q) (-v) := by
  have hd : ∀ w, Decimal p w → Decimal p (-w) := by
    rintro w ⟨k, e, hk, rfl⟩
    exact ⟨-k, e, by rwa [abs_neg], by push_cast; ring⟩
  refine ⟨hd v h.1, fun w hw => ?_⟩
  have h1 := h.2 (-w) (hd w hw)
  have e1 : -v - -q = -(v - q) := by ring
  have e2 : w - -q = -(-w - q) := by ring
  rw [e1, e2, abs_neg, abs_neg]
  exact h1

/-- What `number->string` makes of a number, as digits, fraction and exponent. -/
theorem text_shape (q : ℚ) : ∃ (neg : Bool) (i t : List Char) (v : ℚ), numberToString (.fin q) = (if neg then ['-'] else []) ++ (i ++ t) ∧
    Digits i ∧ i ≠ [] ∧ (∀ c ∈ t, OkChar c) ∧ ('.' ∈ t ∨ 'e' ∈ t) ∧ scanDec (i ++ t) = some (v, []) ∧
    NearestDecimal 16 q (if neg then -v else v) := by
  by_cases h0 : q = 0
  · subst h0
    refine ⟨false, ['0'], ['.'], 0, by simp [numberToString, printG], ?_, by simp, ?_, by simp, ?_, ?_⟩
    · intro c hc; rw [List.mem_singleton.1 hc]; decide
    · intro c hc; rw [List.mem_singleton.1 hc]; exact Or.inr (Or.inl rfl)
    · have := scanDec_point (i := ['0']) (by intro c hc; rw [List.mem_singleton.1 hc]; decide) (by simp)
      have e : valD ['0'] = 0 := by decide
      rw [e] at this
      simpa using this
    · refine ⟨⟨0, 0, by simp, by simp⟩, fun w _ => by simp⟩
  · obtain ⟨hk, hbest⟩ := sci_spec 16 (by norm_num) q h0
    obtain ⟨i, f, e, y, hg, hi, hn, hf, he, hval⟩ := gText_shape 16 (sci 16 q).1 (sci 16 q).2 (by norm_num) hk
    have hnd : NearestDecimal 16 q (if decide (q < 0) then -((valD (i ++ f) : ℚ) * 10 ^ (y - f.length))
        else (valD (i ++ f) : ℚ) * 10 ^ (y - f.length)) := by
      rw [hval]
      by_cases hq : q < 0
      · simp only [hq, decide_true, if_true]
        have := NearestDecimal.neg hbest
        rwa [abs_of_neg hq, neg_neg] at this
      · simp only [hq, decide_false, Bool.false_eq_true, if_false]
        have := hbest
        rwa [abs_of_nonneg (not_lt.1 hq)] at this
    have hbuf : printG 16 (.fin q) = (if decide (q < 0) then ['-'] else []) ++ (i ++ point f ++ e) := by
      rw [← hg]
      simp [printG, h0]
    have heok : ∀ c ∈ e, OkChar c := by
      intro c hc
      rcases he with ⟨he, _⟩ | he
      · rw [he] at hc; cases hc
      · rw [he] at hc
        unfold expText at hc
        simp only [List.mem_cons, List.mem_append] at hc
        rcases hc with hc | hc | hc | hc
        · exact Or.inr (Or.inr (Or.inl hc))
        · split at hc
          · exact Or.inr (Or.inr (Or.inr (Or.inr hc)))
          · exact Or.inr (Or.inr (Or.inr (Or.inl hc)))
        · split at hc
          · rw [List.mem_singleton.1 hc]; exact Or.inl (by decide)
          · cases hc
        · exact Or.inl ((natDigits_ten _).2.1 c hc)
    by_cases hpt : '.' ∉ printG 16 (.fin q) ∧ 'e' ∉ printG 16 (.fin q) ∧ 'E' ∉ printG 16 (.fin q)
    · have hns : numberToString (.fin q) = printG 16 (.fin q) ++ ['.'] := by
        unfold numberToString; simp only; rw [if_pos hpt]
      rw [hbuf] at hpt
      have hf0 : f = [] := by
        by_contra hf0
        exact hpt.1 (by simp [point, hf0])
      have he0 : e = [] ∧ y = 0 := by
        rcases he with he | he
        · exact he
        · exact absurd (by rw [he]; simp [expText]) hpt.2.1
      obtain ⟨he0, hy0⟩ := he0
      subst hf0 he0 hy0
      refine ⟨decide (q < 0), i, ['.'], valD i, by rw [hns, hbuf]; simp [point], hi, hn, ?_, by simp, scanDec_point hi hn, ?_⟩
      · intro c hc; rw [List.mem_singleton.1 hc]; exact Or.inr (Or.inl rfl)
      · simpa using hnd
    · have hns : numberToString (.fin q) = printG 16 (.fin q) := by
        unfold numberToString; simp only; rw [if_neg hpt]
      have hte : '.' ∈ point f ++ e ∨ 'e' ∈ point f ++ e := by
        by_cases hf0 : f = []
        · rcases he with ⟨he, _⟩ | he
          · exfalso
            apply hpt
            subst hf0 he
            rw [hbuf]
            have hx : ∀ c, isDigit c = false → c ≠ '-' → c ∉ (if decide (q < 0) then ['-'] else []) ++ (i ++ point [] ++ []) := by
              intro c hc hm hmem
              simp only [point, if_true, List.append_nil] at hmem
              rcases List.mem_append.1 hmem with h | h
              · split at h
                · exact hm (List.mem_singleton.1 h)
                · cases h
              · rw [hi c h] at hc; cases hc
            exact ⟨hx _ (by decide) (by decide), hx _ (by decide) (by decide), hx _ (by decide) (by decide)⟩
          · right; rw [he]; simp [expText]
        · left; simp [point, hf0]
      refine ⟨decide (q < 0), i, point f ++ e, _, by rw [hns, hbuf, List.append_assoc], hi, hn, ?_, hte,
        by rw [← List.append_assoc]; exact scanDec_plain hi hn hf he, hnd⟩
      intro c hc
      rcases List.mem_append.1 hc with hc | hc
      · unfold point at hc
        split at hc
        · cases hc
        · rcases List.mem_cons.1 hc with hc | hc
          · exact Or.inr (Or.inl hc)
          · exact Or.inl (hf c hc)
      · exact heok c hc

/-- **C114**: the text of a finite inexact number is read as the inexact number nearest to a decimal number of 16 digits that
is nearest to the number written. -/
theorem C114_nearest (q : ℚ) : ∃ v, NearestDecimal 16 q v ∧ stringToFloat (numberToString (.fin q)) = some (rne v) := by
  obtain ⟨neg, i, t, v, hs, hi, hn, ht, hp, hv, hnd⟩ := text_shape q
  refine ⟨_, hnd, ?_⟩
  rw [hs, read_text neg hi hn ht hp hv]
  cases neg with
  | false => rfl
  | true => simp only [if_true]; rw [rn_neg]

/-- **C114, partial**: an inexact number which 16 digits are enough for is read as itself. Missing: the others, see
`C114_lost_violated`. -/
theorem C114_round_trip_partial (q : ℚ) (hq : Double q) (hd : Decimal 16 q) : stringToFloat (numberToString (.fin q)) = some (.fin q) := by
  obtain ⟨v, hv, hr⟩ := C114_nearest q
  have h := hv.2 q hd
  rw [sub_self, abs_zero] at h
  have : v = q := by
    have := abs_eq_zero.1 (le_antisymm h (abs_nonneg _))
    linarith
  rw [hr, this, hq.rne]

/-- **C114, partial**: integers up to 2^53 are read as themselves. -/
theorem C114_integers_partial (n : Int) (h : |n| ≤ 2 ^ 53) : stringToFloat (numberToString (.fin n)) = some (.fin n) :=
  C114_round_trip_partial n (double_int h) ⟨n, 0, lt_of_le_of_lt h (by norm_num), by simp⟩

example : Double ((5 / 2 : ℚ)) ∧ Decimal 16 (5 / 2 : ℚ) :=
  ⟨⟨5, -1, by norm_num, by norm_num, by norm_num, by norm_num⟩, ⟨25, -1, by norm_num, by norm_num⟩⟩

/-- **C114, violated**: infinite numbers and nan are written with a point, and can't be read. -/
theorem C114_infinite_violated : numberToString (.inf false) = "inf.".toList ∧ stringToFloat "inf.".toList = none ∧
    numberToString (.inf true) = "-inf.".toList ∧ stringToFloat "-inf.".toList = none ∧
    numberToString .nan = "nan.".toList ∧ stringToFloat "nan.".toList = none := by
  refine ⟨by decide, ?_, by decide, ?_, by decide, ?_⟩ <;> rfl

/-! ### Numbers which lie far enough apart -/

theorem decimal_near (q : ℚ) (x : Int) (hx : |q| < 10 ^ (x + 1)) : ∃ w, Decimal 16 w ∧ |w - q| ≤ 10 ^ (x - 15) / 2 := by
  have hup := ten_pos (x - 15)
  set u : ℚ := 10 ^ (x - 15) with hu
  have h16 : (10 : ℚ) ^ (x + 1) = ((10 ^ 16 : Int) : ℚ) * u := by
    have : x + 1 = (16 : Nat) + (x - 15) := by omega
    rw [this, zpow_add₀ (by norm_num), zpow_natCast]
    push_cast
    rfl
  have hb := abs_lt.1 hx
  rw [h16] at hb
  have hlo : (-(10 ^ 16) : Int) ≤ nearest (q / u) := le_nearest (by rw [le_div_iff₀ hup]; push_cast; push_cast at hb; linarith)
  have hhi : nearest (q / u) ≤ (10 ^ 16 : Int) := nearest_le (by rw [div_le_iff₀ hup]; exact hb.2.le)
  refine ⟨nearest (q / u) * u, ?_, ?_⟩
  · by_cases h : |nearest (q / u)| < 10 ^ 16
    · exact ⟨_, _, h, rfl⟩
    · have ha : |nearest (q / u)| = 10 ^ 16 := le_antisymm (abs_le.2 ⟨hlo, hhi⟩) (not_lt.1 h)
      have h10 : u * 10 = 10 ^ (x - 15 + 1) := by rw [zpow_add₀ (by norm_num), hu]; norm_num
      rcases (abs_eq (by norm_num)).1 ha with e | e
      · refine ⟨10 ^ 15, x - 15 + 1, by norm_num, ?_⟩
        rw [e, ← h10]; push_cast; ring
      · refine ⟨-(10 ^ 15), x - 15 + 1, by norm_num, ?_⟩
        rw [e, ← h10]; push_cast; ring
  · have h := (nearest_spec (q / u)).1
    have e : (nearest (q / u) : ℚ) * u - q = -((q / u - nearest (q / u)) * u) := by field_simp; ring
    rw [e, abs_neg, abs_mul, abs_of_pos hup]
    have := mul_le_mul_of_nonneg_right h hup.le
    linarith

theorem spaced_round_trip {q : ℚ} (hq : Double q) {x : Int} (hx : |q| < 10 ^ (x + 1)) (hb : |q| < 2 ^ 1022)
    (hfar : ∀ w, Double w → w ≠ q → 10 ^ (x - 15) < |w - q|) : stringToFloat (numberToString (.fin q)) = some (.fin q) := by
  obtain ⟨v, hv, hr⟩ := C114_nearest q
  obtain ⟨w, hw, hwq⟩ := decimal_near q x hx
  have h1 : |v - q| ≤ 10 ^ (x - 15) / 2 := le_trans (hv.2 w hw) hwq
  have h0 : |v - q| ≤ |q| := by
    have := hv.2 0 ⟨0, 0, by norm_num, by simp⟩
    rwa [zero_sub, abs_neg] at this
  have h2 := rn_nearest v hq
  have h3 : |rn v - q| ≤ |v - rn v| + |v - q| := by
    have : rn v - q = -(v - rn v) + (v - q) := by ring
    rw [this]
    exact le_trans (abs_add_le _ _) (by rw [abs_neg])
  have h4 : |rn v| ≤ |rn v - q| + |q| := by
    have : rn v = (rn v - q) + q := by ring
    conv_lhs => rw [this]
    exact abs_add_le _ _
  have hlt : |rn v| < 2 ^ 1024 := by
    have : (2 : ℚ) ^ 1024 = 2 ^ 1022 * 4 := by rw [show 1024 = 1022 + 2 from rfl, pow_add]; norm_num
    rw [this]
    clear this
    generalize (2 : ℚ) ^ 1022 = B at *
    have := abs_nonneg q
    clear hfar hv hr hx hwq h1
    linarith
  rw [hr, rne_eq hlt]
  by_cases he : rn v = q
  · rw [he]
  · have := hfar (rn v) (rn_double hlt) he
    linarith

/-- **C114, partial**: where inexact numbers lie farther apart than decimal numbers of 16 digits, they are read as themselves. `b` and
`x` are the binary and the decimal exponent. -/
theorem C114_spaced_partial (q : ℚ) (hq : Double q) (b x : Int) (hb : -1022 ≤ b) (hb2 : b < 1021) (h1 : (2 : ℚ) ^ b < |q|) (h2 : |q| < 2 ^ (b + 1))
    (hx : |q| < 10 ^ (x + 1)) (hs : (10 : ℚ) ^ (x - 15) < 2 ^ (b - 52)) : stringToFloat (numberToString (.fin q)) = some (.fin q) := by
  refine spaced_round_trip hq hx ?_ ?_
  · refine lt_of_lt_of_le h2 ?_
    have : (2 : ℚ) ^ 1022 = 2 ^ (1022 : Int) := by rw [← zpow_natCast, Nat.cast_ofNat]
    rw [this]
    exact zpow_le_zpow_right₀ (by norm_num) (by omega)
  intro w hw hne
  refine lt_of_lt_of_le hs ?_
  have hsp := two_pos (b - 52)
  have hqe : expo q = b - 52 := by
    unfold expo
    rw [log_eq h1.le h2]
    omega
  obtain ⟨k, hk⟩ : Grid (b - 52) q := hqe ▸ hq.grid
  have h52 : (2 : ℚ) ^ b = ((2 ^ 52 : Int) : ℚ) * 2 ^ (b - 52) := by
    have : b = (52 : Nat) + (b - 52) := by omega
    conv_lhs => rw [this, zpow_add₀ (by norm_num), zpow_natCast]
    push_cast; rfl
  by_cases hwb : (2 : ℚ) ^ b ≤ |w|
  · have hwe : b - 52 ≤ expo w := by
      unfold expo
      have hp : 0 < |w| := lt_of_lt_of_le (two_pos b) hwb
      have : b ≤ Int.log 2 |w| := by rw [← Int.zpow_le_iff_le_log (by decide) hp]; exact_mod_cast hwb
      omega
    obtain ⟨j, hj⟩ : Grid (b - 52) w := hw.grid.le hwe
    have hjk : j ≠ k := by rintro rfl; exact hne (hj.trans hk.symm)
    have : (1 : ℚ) ≤ |((j - k : Int) : ℚ)| := by
      have : 1 ≤ |j - k| := Int.one_le_abs (by omega)
      exact_mod_cast this
    have e : w - q = ((j - k : Int) : ℚ) * 2 ^ (b - 52) := by rw [hj, hk]; push_cast; ring
    rw [e, abs_mul, abs_of_pos hsp]
    nlinarith
  · have hkk : (2 ^ 52 : Int) + 1 ≤ |k| := by
      have h := h1
      rw [hk, abs_mul, abs_of_pos hsp, h52] at h
      have := lt_of_mul_lt_mul_right h hsp.le
      have : (2 ^ 52 : Int) < |k| := by exact_mod_cast this
      omega
    have hq' : (2 : ℚ) ^ b + 2 ^ (b - 52) ≤ |q| := by
      rw [hk, abs_mul, abs_of_pos hsp, h52]
      have : ((2 ^ 52 : Int) : ℚ) + 1 ≤ |(k : ℚ)| := by exact_mod_cast hkk
      nlinarith
    have h3 : |q| - |w| ≤ |w - q| := by rw [abs_sub_comm]; exact abs_sub_abs_le_abs_sub q w
    linarith [not_le.1 hwb]

/-- For example all inexact numbers between 8 and 10. -/
theorem C114_eight_partial (q : ℚ) (hq : Double q) (h8 : 8 < q) (h10 : q < 10) : stringToFloat (numberToString (.fin q)) = some (.fin q) := by
  have ha : |q| = q := abs_of_pos (by linarith)
  refine C114_spaced_partial q hq 3 0 (by norm_num) (by norm_num) ?_ ?_ ?_ (by norm_num)
  · rw [ha]; norm_num; exact h8
  · rw [ha]; norm_num; linarith
  · rw [ha]; norm_num; exact h10

example : Double (9 + 1 / 2 ^ 49 : ℚ) := ⟨9 * 2 ^ 49 + 1, -49, by norm_num, by norm_num, by norm_num, by norm_num⟩

/-! ### Numbers which 16 digits are not enough for -/

theorem log10_eq {q : ℚ} {k : Int} (h1 : (10 : ℚ) ^ k ≤ |q|) (h2 : |q| < 10 ^ (k + 1)) : Int.log 10 |q| = k := by
  have hp : 0 < |q| := lt_of_lt_of_le (ten_pos k) h1
  have a : Int.log 10 |q| < k + 1 := by rw [← Int.lt_zpow_iff_log_lt (by decide) hp]; exact_mod_cast h2
  have b : k ≤ Int.log 10 |q| := by rw [← Int.zpow_le_iff_le_log (by decide) hp]; exact_mod_cast h1
  omega

/-- The sum of 0.1 and 0.2. -/
def sum3 : ℚ := 5404319552844596 / 2 ^ 54

theorem sum3_text : numberToString (.fin sum3) = "0.3".toList := by
  have ha : |sum3| = sum3 := abs_of_pos (by norm_num [sum3])
  have hl : Int.log 10 sum3 = -1 := by
      have := log10_eq (q := sum3) (k := -1) (by rw [ha]; norm_num [sum3]) (by rw [ha]; norm_num [sum3])
      rwa [ha] at this
  have hn : nearest (sum3 / 10 ^ (-1 - 16 + 1 : Int)) = 3000000000000000 := by
    have hf : ⌊sum3 / 10 ^ (-1 - 16 + 1 : Int)⌋ = 3000000000000000 := by
      rw [Int.floor_eq_iff]; norm_num [sum3]
    unfold nearest
    rw [hf, if_pos (by norm_num [sum3])]
  have hsci : sci 16 sum3 = (3000000000000000, -1) := by
    unfold sci
    simp only [ha, hl, Nat.cast_ofNat, hn]
    rfl
  have hp : printG 16 (.fin sum3) = "0.3".toList := by
    have h0 : sum3 ≠ 0 := by norm_num [sum3]
    have h1 : ¬ sum3 < 0 := by norm_num [sum3]
    show (if sum3 = 0 then ['0'] else (if sum3 < 0 then ['-'] else []) ++ gText 16 (sci 16 sum3).1 (sci 16 sum3).2) = _
    rw [if_neg h0, if_neg h1, hsci]
    decide +kernel
  unfold numberToString
  simp only [hp]
  decide +kernel

theorem read3 : stringToFloat "0.3".toList = some (.fin (5404319552844595 / 2 ^ 54)) := by
  have hd : Digits ['0'] := by intro c hc; rw [List.mem_singleton.1 hc]; decide
  have hd3 : Digits ['3'] := by intro c hc; rw [List.mem_singleton.1 hc]; decide
  have h := scanDec_plain (i := ['0']) (f := ['3']) (e := []) (x := 0) hd (by simp) hd3 (Or.inl ⟨rfl, rfl⟩)
  have hv : valD (['0'] ++ ['3']) = 3 := by decide
  rw [hv] at h
  have h2 := read_text (i := ['0']) (t := ['.', '3']) false hd (by simp)
    (by intro c hc
        simp only [List.mem_cons, List.not_mem_nil, or_false] at hc
        rcases hc with rfl | rfl
        · exact Or.inr (Or.inl rfl)
        · exact Or.inl (by decide)) (by simp) h
  have e : (((3 : Nat) : ℚ) * 10 ^ ((0 : Int) - (['3'].length : Nat))) = 3 / 10 := by norm_num
  rw [e] at h2
  have hr : rne (3 / 10) = .fin (5404319552844595 / 2 ^ 54) := by
    have habs : |(3 / 10 : ℚ)| = 3 / 10 := abs_of_pos (by norm_num)
    have hu : ulp (3 / 10 : ℚ) = 1 / 2 ^ 54 := by
      unfold ulp expo
      rw [log_eq (k := -2) (by rw [habs]; norm_num) (by rw [habs]; norm_num)]
      norm_num
    have hf : ⌊(3 / 10 : ℚ) / (1 / 2 ^ 54)⌋ = 5404319552844595 := by
      rw [Int.floor_eq_iff]; norm_num
    have hn : nearest ((3 / 10 : ℚ) / (1 / 2 ^ 54)) = 5404319552844595 := by
      unfold nearest
      rw [hf, if_pos (by norm_num)]
    have er : rn (3 / 10) = 5404319552844595 / 2 ^ 54 := by
      unfold rn
      rw [hu, hn]; norm_num
    rw [rne_eq (by rw [er]; exact lt_1024 (by norm_num) (by norm_num)), er]
  rw [hr] at h2
  exact h2

/-- **C114, violated**: the sum of 0.1 and 0.2 is written as 0.3, which is another number. -/
theorem C114_lost_violated : Double sum3 ∧ numberToString (.fin sum3) = "0.3".toList ∧
    ∃ d, stringToFloat "0.3".toList = some (.fin d) ∧ d ≠ sum3 :=
  ⟨⟨5404319552844596, -54, by norm_num, by norm_num, by norm_num, by norm_num [sum3]⟩, sum3_text, _, read3, by norm_num [sum3]⟩

/-- The inexact number nearest to 9.95. -/
def near995 : ℚ := 5601352036542054 / 2 ^ 49

/-- **C114, violated**: the text `9.95` is read as a number which is written with 16 digits, `9.949999999999999`. -/
theorem C114_short_violated : rne (995 / 100) = .fin near995 ∧ numberToString (.fin near995) = "9.949999999999999".toList := by
  constructor
  · have habs : |(995 / 100 : ℚ)| = 995 / 100 := abs_of_pos (by norm_num)
    have hu : ulp (995 / 100 : ℚ) = 1 / 2 ^ 49 := by
      unfold ulp expo
      rw [log_eq (k := 3) (by rw [habs]; norm_num) (by rw [habs]; norm_num)]
      norm_num
    have hf : ⌊(995 / 100 : ℚ) / (1 / 2 ^ 49)⌋ = 5601352036542054 := by
      rw [Int.floor_eq_iff]; norm_num
    have hn : nearest ((995 / 100 : ℚ) / (1 / 2 ^ 49)) = 5601352036542054 := by
      unfold nearest
      rw [hf, if_pos (by norm_num)]
    have er : rn (995 / 100) = near995 := by
      unfold rn
      rw [hu, hn]; norm_num [near995]
    rw [rne_eq (by rw [er]; exact lt_1024 (by norm_num [near995]) (by norm_num [near995])), er]
  · have ha : |near995| = near995 := abs_of_pos (by norm_num [near995])
    have hl : Int.log 10 near995 = 0 := by
      have := log10_eq (q := near995) (k := 0) (by rw [ha]; norm_num [near995]) (by rw [ha]; norm_num [near995])
      rwa [ha] at this
    have hn : nearest (near995 / 10 ^ (0 - 16 + 1 : Int)) = 9949999999999999 := by
      have hf : ⌊near995 / 10 ^ (0 - 16 + 1 : Int)⌋ = 9949999999999999 := by
        rw [Int.floor_eq_iff]; norm_num [near995]
      unfold nearest
      rw [hf, if_pos (by norm_num [near995])]
    have hsci : sci 16 near995 = (9949999999999999, 0) := by
      unfold sci
      simp only [ha, hl, Nat.cast_ofNat, hn]
      rfl
    have hp : printG 16 (.fin near995) = "9.949999999999999".toList := by
      have h0 : near995 ≠ 0 := by norm_num [near995]
      have h1 : ¬ near995 < 0 := by norm_num [near995]
      show (if near995 = 0 then ['0'] else (if near995 < 0 then ['-'] else []) ++ gText 16 (sci 16 near995).1 (sci 16 near995).2) = _
      rw [if_neg h0, if_neg h1, hsci]
      decide +kernel
    unfold numberToString
    simp only [hp]
    decide +kernel

end Rep.Dbl
