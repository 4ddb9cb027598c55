import Verif.Dbl.Round

namespace Rep.Dbl

open Spec
open Rep.Number (Num Res makeLongInt maybeDemote minInt maxInt)

/-! ### Rationals -/

/-- A rational whose numerator has at most 50 bits, and which is not too small. -/
def Near (q : ℚ) : Prop := |q.num| ≤ 2 ^ 50 ∧ q.den ≤ 2 ^ 1072

theorem abs_eq_div (q : ℚ) : |q| = |(q.num : ℚ)| / q.den := by
  conv_lhs => rw [← Rat.num_div_den q]
  rw [abs_div, Nat.abs_cast]

theorem den_pos (q : ℚ) : (0 : ℚ) < q.den := by exact_mod_cast q.den_pos

theorem Near.abs_le {q : ℚ} (h : Near q) : |q| ≤ 2 ^ 50 := by
  rw [abs_eq_div, div_le_iff₀ (den_pos q)]
  have h1 : |(q.num : ℚ)| ≤ 2 ^ 50 := by exact_mod_cast h.1
  have h2 : (1 : ℚ) ≤ q.den := by exact_mod_cast q.den_pos
  nlinarith [abs_nonneg (q.num : ℚ)]

theorem Near.ulp {q : ℚ} (h : Near q) : Dbl.ulp q ≤ 1 / (4 * q.den) := by
  have hd := den_pos q
  have small : (2 : ℚ) ^ (-1074 : Int) ≤ 1 / (4 * q.den) := by
    rw [le_div_iff₀ (by linarith), zpow_neg, ← div_eq_inv_mul, div_le_one (two_pos _)]
    have h2 : (q.den : ℚ) ≤ 2 ^ 1072 := by exact_mod_cast h.2
    calc 4 * (q.den : ℚ) ≤ 2 ^ 2 * 2 ^ 1072 := by linarith
      _ = 2 ^ 1074 := by rw [← pow_add]
      _ = 2 ^ (1074 : Int) := (zpow_natCast 2 1074).symm
  rcases ulp_le q with h1 | h1 | h1
  · refine h1.trans ?_
    rw [abs_eq_div, div_div, div_le_div_iff₀ (by positivity) (by positivity)]
    have h3 : |(q.num : ℚ)| ≤ 2 ^ 50 := by exact_mod_cast h.1
    calc |(q.num : ℚ)| * (4 * q.den) ≤ 2 ^ 50 * (4 * q.den) := mul_le_mul_of_nonneg_right h3 (by linarith)
      _ = 1 * (q.den * 2 ^ 52) := by ring
  · rw [h1]; exact small
  · subst h1
    unfold Dbl.ulp
    rw [expo_zero]
    norm_num

theorem rz_close (q : ℚ) : |rz q - q| < Dbl.ulp q := by
  rcases le_total 0 q with h | h
  · have := rz_nonneg h
    rw [abs_lt]
    constructor <;> linarith [ulp_pos q]
  · have := rz_nonneg (show 0 ≤ -q by linarith)
    rw [rz_neg] at this
    have e : Dbl.ulp (-q) = Dbl.ulp q := by unfold Dbl.ulp; rw [expo_neg]
    rw [e] at this
    rw [abs_lt]
    constructor <;> linarith [ulp_pos q]

/-- A rational is not too near to another half integer. -/
theorem half_far {q : ℚ} {n : Int} (h : q ≠ n / 2) : 1 / (2 * q.den) ≤ |q - n / 2| := by
  have hd := den_pos q
  have e : q - n / 2 = ((2 * q.num - n * q.den : Int) : ℚ) / (2 * q.den) := by
    conv_lhs => rw [← Rat.num_div_den q]
    push_cast
    field_simp
  rw [e, abs_div, abs_of_pos (show (0 : ℚ) < 2 * q.den by linarith)]
  refine div_le_div_of_nonneg_right ?_ (by linarith)
  have : 2 * q.num - n * q.den ≠ 0 := by
    intro h0
    rw [h0] at e
    apply h
    simp at e
    linarith
  have : 1 ≤ |2 * q.num - n * q.den| := Int.one_le_abs this
  exact_mod_cast this

theorem Near.expo {q : ℚ} (h : Near q) : Dbl.expo q ≤ -2 := by
  by_cases h0 : q = 0
  · subst h0; rw [expo_zero]; norm_num
  refine expo_lt h0 (lt_of_le_of_lt h.abs_le ?_) (by norm_num)
  norm_num

/-- No half integer is passed when a rational is made a double. -/
theorem Near.sep {q : ℚ} (h : Near q) (n : Int) : (q < n / 2 → rz q < n / 2) ∧ ((n : ℚ) / 2 < q → (n : ℚ) / 2 < rz q) ∧ (q = n / 2 → rz q = q) := by
  have hc := rz_close q
  have hu := h.ulp
  have hd := den_pos q
  have hlt : 1 / (4 * (q.den : ℚ)) < 1 / (2 * q.den) := by
    rw [div_lt_div_iff₀ (by linarith) (by linarith)]; linarith
  rw [abs_lt] at hc
  refine ⟨fun hq => ?_, fun hq => ?_, fun hq => ?_⟩
  · have := half_far hq.ne
    rw [abs_of_neg (by linarith)] at this
    linarith
  · have := half_far hq.ne'
    rw [abs_of_pos (by linarith)] at this
    linarith
  · refine rz_fix (Grid.le (e := -1) (by have := h.expo; omega) ⟨n, ?_⟩)
    rw [hq]
    norm_num
    ring

theorem Near.le {q : ℚ} (h : Near q) (n : Int) : ((n : ℚ) / 2 ≤ q ↔ (n : ℚ) / 2 ≤ rz q) ∧ (q ≤ (n : ℚ) / 2 ↔ rz q ≤ (n : ℚ) / 2) ∧
    (q = (n : ℚ) / 2 ↔ rz q = (n : ℚ) / 2) := by
  obtain ⟨h1, h2, h3⟩ := h.sep n
  rcases lt_trichotomy q (n / 2) with hq | hq | hq
  · have := h1 hq
    exact ⟨⟨fun _ => by linarith, fun _ => by linarith⟩, ⟨fun _ => by linarith, fun _ => by linarith⟩,
      ⟨fun e => by linarith, fun e => by linarith⟩⟩
  · have := h3 hq
    rw [this]
    exact ⟨Iff.rfl, Iff.rfl, Iff.rfl⟩
  · have := h2 hq
    exact ⟨⟨fun _ => by linarith, fun _ => by linarith⟩, ⟨fun _ => by linarith, fun _ => by linarith⟩,
      ⟨fun e => by linarith, fun e => by linarith⟩⟩

theorem two_mul_half (n : Int) : ((2 * n : Int) : ℚ) / 2 = n := by push_cast; ring

theorem Near.floor {q : ℚ} (h : Near q) : ⌊rz q⌋ = ⌊q⌋ := by
  have h1 := (h.le (2 * ⌊q⌋)).1
  have h2 := (h.le (2 * (⌊q⌋ + 1))).1
  rw [two_mul_half] at h1 h2
  refine Int.floor_eq_iff.2 ⟨h1.1 (Int.floor_le q), ?_⟩
  by_contra hlt
  push Not at hlt
  have := h2.2 (by push_cast; exact hlt)
  push_cast at this
  linarith [Int.lt_floor_add_one q]

theorem Near.ceil {q : ℚ} (h : Near q) : ⌈rz q⌉ = ⌈q⌉ := by
  have h1 := (h.le (2 * ⌈q⌉)).2.1
  have h2 := (h.le (2 * (⌈q⌉ - 1))).2.1
  rw [two_mul_half] at h1 h2
  refine Int.ceil_eq_iff.2 ⟨?_, h1.1 (Int.le_ceil q)⟩
  by_contra hlt
  push Not at hlt
  have := h2.2 (by push_cast; exact hlt)
  push_cast at this
  linarith [Int.ceil_lt_add_one q]

theorem Near.nearest {q : ℚ} (h : Near q) : Dbl.nearest (rz q) = Dbl.nearest q := by
  refine Nearest.unique (nearest_spec _) ?_
  have ⟨a, b⟩ := nearest_spec q
  obtain ⟨n, hn⟩ : ∃ n, n = Dbl.nearest q := ⟨_, rfl⟩
  rw [← hn] at a b ⊢
  have h1 := h.le (2 * n - 1)
  have h2 := h.le (2 * n + 1)
  have e1 : ((2 * n - 1 : Int) : ℚ) / 2 = n - 1 / 2 := by push_cast; ring
  have e2 : ((2 * n + 1 : Int) : ℚ) / 2 = n + 1 / 2 := by push_cast; ring
  rw [e1] at h1
  rw [e2] at h2
  rw [_root_.abs_le] at a
  have a1 := h1.1.1 (by linarith)
  have a2 := h2.2.1.1 (by linarith)
  refine ⟨by rw [_root_.abs_le]; constructor <;> linarith, fun e => b ?_⟩
  rcases abs_choice (rz q - n) with hc | hc <;> rw [hc] at e
  · have := h2.2.2.2 (by linarith)
    rw [this, add_sub_cancel_left, abs_of_pos (by norm_num)]
  · have := h1.2.2.2 (by linarith)
    rw [this, show (n : ℚ) - 1 / 2 - n = -(1 / 2) by ring, abs_neg, abs_of_pos (by norm_num)]

theorem rz_abs_le (q : ℚ) : |rz q| ≤ |q| := by
  rcases le_total 0 q with h | h
  · have := rz_nonneg h
    rw [abs_of_nonneg this.1, abs_of_nonneg h]
    exact this.2.1
  · have := rz_nonneg (show 0 ≤ -q by linarith)
    rw [rz_neg] at this
    rw [abs_of_nonpos (by linarith), abs_of_nonpos h]
    exact this.2.1

theorem Near.rtz {q : ℚ} (h : Near q) : Dbl.rtz q = .fin (rz q) :=
  rtz_eq (lt_big (((rz_abs_le q).trans h.abs_le).trans (by norm_num)))

theorem rz_double {q : ℚ} (h : |q| < 2 ^ 1024) : Double (rz q) := by
  by_cases h0 : rz q = 0
  · rw [h0]; exact ⟨0, 0, by norm_num, by norm_num, by norm_num, by simp⟩
  · exact double_of_grid ((rz_grid q).le (expo_mono h0 (rz_abs_le q))) (lt_of_le_of_lt (rz_abs_le q) h)

/-- Integers which fit in a `long`. -/
theorem makeLong_int {n : Int} (h : |n| < 2 ^ 63) : ∃ r, makeLong (.fin (n : ℚ)) = .ok r ∧ exact r = true ∧ value r = some (n : ℚ) := by
  rw [abs_lt] at h
  refine ⟨.ex (makeLongInt n), ?_, rfl, ?_⟩
  · show (Rep.Number.clong (trunc (n : ℚ))).bind _ = _
    rw [trunc_int]
    unfold Rep.Number.clong
    rw [if_pos ⟨by omega, h.2⟩]
    rfl
  · unfold makeLongInt
    split
    · rename_i hr
      unfold Rep.Number.makeInt Rep.Number.minInt Rep.Number.maxInt at *
      show some (((Int.bmod n (2 ^ 62) : Int)) : ℚ) = _
      rw [Int.bmod_eq_of_le (by omega) (by omega)]
    · rfl

/-! ### C68 -/

/-- Rationals have small numerators. -/
def Small : Number → Prop
  | .ex (.rat q) => Near q
  | _ => True

theorem floor_abs {q : ℚ} (h : |q| ≤ 2 ^ 50) : |⌊q⌋| < 2 ^ 63 ∧ |⌈q⌉| < 2 ^ 63 ∧ |nearest q| < 2 ^ 63 := by
  rw [_root_.abs_le] at h
  have f1 : (-2 ^ 50 : Int) ≤ ⌊q⌋ := Int.le_floor.2 (by push_cast; linarith)
  have f2 : ⌊q⌋ ≤ (2 ^ 50 : Int) := by
    have : (⌊q⌋ : ℚ) ≤ 2 ^ 50 := (Int.floor_le q).trans h.2
    exact_mod_cast this
  have c := Int.ceil_le_floor_add_one q
  have c' := Int.floor_le_ceil q
  have n := nearest_bounds q
  refine ⟨?_, ?_, ?_⟩ <;> rw [abs_lt] <;> constructor <;> omega

/-- C68.  `floor` gives the largest integer not above its argument.
Missing: rationals with large numerators or denominators (`C68_floor_violated`). -/
theorem C68_floor_partial (x : Number) (hx : Small x) : ∃ r, floor x = .ok r ∧ Rounds (fun q n => n = ⌊q⌋) x r := by
  match x with
  | .ex (.fix w) => exact ⟨_, rfl, rfl, w, by simp, rfl⟩
  | .ex (.big z) => exact ⟨_, rfl, rfl, z, by simp, rfl⟩
  | .ex (.rat q) =>
    have hn : Near q := hx
    obtain ⟨r, e, h1, h2⟩ := makeLong_int (floor_abs hn.abs_le).1
    refine ⟨r, ?_, h1, ⌊q⌋, rfl, h2⟩
    show makeLong (F64.floor (rtz q)) = _
    rw [hn.rtz]
    show makeLong (.fin (⌊rz q⌋ : ℚ)) = _
    rw [hn.floor]
    exact e
  | .fl (.fin q) => exact ⟨_, rfl, rfl, ⌊q⌋, rfl, rfl⟩
  | .fl .nan => exact ⟨_, rfl, rfl, rfl⟩
  | .fl (.inf s) => exact ⟨_, rfl, rfl, rfl⟩

/-- C68.  `ceiling` gives the smallest integer not below its argument (missing: see `C68_floor_partial`). -/
theorem C68_ceiling_partial (x : Number) (hx : Small x) : ∃ r, ceiling x = .ok r ∧ Rounds (fun q n => n = ⌈q⌉) x r := by
  match x with
  | .ex (.fix w) => exact ⟨_, rfl, rfl, w, by simp, rfl⟩
  | .ex (.big z) => exact ⟨_, rfl, rfl, z, by simp, rfl⟩
  | .ex (.rat q) =>
    have hn : Near q := hx
    obtain ⟨r, e, h1, h2⟩ := makeLong_int (floor_abs hn.abs_le).2.1
    refine ⟨r, ?_, h1, ⌈q⌉, rfl, h2⟩
    show makeLong (F64.ceil (rtz q)) = _
    rw [hn.rtz]
    show makeLong (.fin (⌈rz q⌉ : ℚ)) = _
    rw [hn.ceil]
    exact e
  | .fl (.fin q) => exact ⟨_, rfl, rfl, ⌈q⌉, rfl, rfl⟩
  | .fl .nan => exact ⟨_, rfl, rfl, rfl⟩
  | .fl (.inf s) => exact ⟨_, rfl, rfl, rfl⟩

theorem truncate_fin (q : ℚ) : F64.truncate (.fin q) = .fin (trunc q : ℚ) := by
  unfold F64.truncate F64.negative trunc
  by_cases h : q < 0
  · simp only [h, decide_true, if_true]
    rw [if_neg (by linarith)]
    simp only [F64.neg, F64.floor, Int.floor_neg]
    push_cast
    rw [neg_neg]
  · simp only [h, decide_false]
    rw [if_neg (by decide), if_pos (by linarith)]
    rfl

theorem trunc_rz {q : ℚ} (h : |q| < 2 ^ 53) : trunc (rz q) = trunc q := by
  have key : ∀ {q : ℚ}, 0 ≤ q → |q| < 2 ^ 53 → trunc (rz q) = trunc q := by
    intro q hq h
    have b := rz_nonneg hq
    have hex : expo q ≤ 0 := by
      by_cases h0 : q = 0
      · subst h0; rw [expo_zero]; norm_num
      · exact expo_lt h0 (by exact_mod_cast h) (by norm_num)
    have := le_rz (Grid.int hex ⌊q⌋) (Int.floor_le q)
    unfold trunc
    rw [if_pos b.1, if_pos hq]
    exact Int.floor_eq_iff.2 ⟨this, by linarith [Int.lt_floor_add_one q]⟩
  rcases le_total 0 q with hq | hq
  · exact key hq h
  · have := key (q := -q) (by linarith) (by rwa [abs_neg])
    rw [rz_neg, trunc_neg, trunc_neg] at this
    omega

/-- Rationals are smaller than 2^53. -/
def Medium : Number → Prop
  | .ex (.rat q) => |q| < 2 ^ 53
  | _ => True

/-- C68.  `truncate` drops the fraction.
Missing: rationals from 2^53 on (`C68_truncate_violated`, `C68_long_violated`). -/
theorem C68_truncate_partial (x : Number) (hx : Medium x) :
    ∃ r, truncate x = .ok r ∧ Rounds (fun q n => if 0 ≤ q then n = ⌊q⌋ else n = ⌈q⌉) x r := by
  have tr : ∀ q : ℚ, (if 0 ≤ q then trunc q = ⌊q⌋ else trunc q = ⌈q⌉) := by
    intro q
    unfold trunc
    split <;> simp_all
  match x with
  | .ex (.fix w) => exact ⟨_, rfl, rfl, w, by simp, rfl⟩
  | .ex (.big z) => exact ⟨_, rfl, rfl, z, by simp, rfl⟩
  | .ex (.rat q) =>
    have hq : |q| < 2 ^ 53 := hx
    have hb : |trunc q| < 2 ^ 63 := by
      rw [abs_lt] at hq ⊢
      have a : (-2 ^ 53 : Int) ≤ trunc q := le_trunc (by push_cast; linarith)
      have b : trunc q ≤ (2 ^ 53 : Int) := trunc_le (by push_cast; linarith)
      constructor <;> omega
    obtain ⟨r, e, h1, h2⟩ := makeLong_int hb
    refine ⟨r, ?_, h1, trunc q, tr q, h2⟩
    show makeLong (F64.truncate (rtz q)) = _
    rw [rtz_eq (lt_of_le_of_lt (rz_abs_le q) (hq.trans (pow_lt_pow_right₀ (by norm_num) (by norm_num)))), truncate_fin, trunc_rz hq]
    exact e
  | .fl (.fin q) =>
    refine ⟨.fl (F64.truncate (.fin q)), rfl, rfl, trunc q, tr q, ?_⟩
    rw [truncate_fin]
    rfl
  | .fl .nan => exact ⟨_, rfl, rfl, rfl⟩
  | .fl (.inf s) => cases s <;> exact ⟨_, rfl, rfl, rfl⟩

/-- Doubles are not among the bad ones, rationals have small numerators. -/
def Good : Number → Prop
  | .ex (.rat q) => Near q
  | .fl (.fin q) => ¬Bad q
  | _ => True

theorem Near.not_bad {q : ℚ} (h : Near q) : ¬Bad (rz q) := by
  rintro (hb | ⟨n, hb, _, h1, _⟩)
  · -- too near to 1/2
    have hc := rz_close q
    have h2 := (h.le 1).2.2
    have hne : q ≠ ((1 : Int) : ℚ) / 2 := by
      intro hq
      have := h2.1 hq
      rw [hb] at this
      norm_num at this
    have hfar := half_far hne
    have hge : ((1 : Int) : ℚ) / 2 ≤ q := (h.le 1).1.2 (by rw [hb]; norm_num)
    push_cast at hfar hge
    rw [abs_of_nonneg (by linarith)] at hfar
    have hu := h.ulp
    rw [hb, abs_lt] at hc
    have hd := den_pos q
    -- the denominator is large, and so is the numerator
    have e4 : 1 / (4 * (q.den : ℚ)) = 1 / (2 * q.den) / 2 := by field_simp; norm_num
    rw [e4] at hu
    have hbig : 1 / (2 * (q.den : ℚ)) < 2 / 2 ^ 53 := by linarith
    rw [div_lt_div_iff₀ (by linarith) (by norm_num)] at hbig
    have hnum : (q.num : ℚ) = q * q.den := (Rat.mul_den_eq_num q).symm
    have h50 : (q.num : ℚ) ≤ 2 ^ 50 := by
      have := h.1
      rw [_root_.abs_le] at this
      exact_mod_cast this.2
    rw [hnum] at h50
    nlinarith
  · have := (rz_abs_le q).trans h.abs_le
    rw [hb] at this
    have h3 : |n| ≤ 2 ^ 50 := by exact_mod_cast this
    omega

/-- C68.  `round` gives the nearest integer, the even one of two.
Missing: the double after 1/2 (`C68_half_violated`), odd doubles between 2^52 and 2^53 (`C68_odd_violated`), and rationals with
large numerators or denominators (`C68_round_violated`). -/
theorem C68_round_partial (x : Number) (hv : Valid x) (hx : Good x) : ∃ r, round x = .ok r ∧ Rounds Nearest x r := by
  match x with
  | .ex (.fix w) => exact ⟨_, rfl, rfl, w, by unfold Nearest; simp, rfl⟩
  | .ex (.big z) => exact ⟨_, rfl, rfl, z, by unfold Nearest; simp, rfl⟩
  | .ex (.rat q) =>
    have hn : Near q := hx
    obtain ⟨r, e, h1, h2⟩ := makeLong_int (floor_abs hn.abs_le).2.2
    refine ⟨r, ?_, h1, nearest q, nearest_spec q, h2⟩
    show makeLong (F64.round (rtz q)) = _
    have hlt : |q| < 2 ^ 1024 := lt_big (hn.abs_le.trans (by norm_num))
    rw [hn.rtz, round_double (rz_double hlt) hn.not_bad, hn.nearest]
    exact e
  | .fl (.fin q) =>
    refine ⟨.fl (F64.round (.fin q)), rfl, rfl, nearest q, nearest_spec q, ?_⟩
    rw [round_double hv hx]
    rfl
  | .fl .nan => exact ⟨_, rfl, rfl, rfl⟩
  | .fl (.inf s) => cases s <;> exact ⟨_, rfl, rfl, rfl⟩

/-- -7/3 and 2.5 -/
example : Small (.ex (.rat (-7 / 3))) ∧ Medium (.ex (.rat (-7 / 3))) ∧ Good (.ex (.rat (-7 / 3))) ∧ ⌊(-7 / 3 : ℚ)⌋ = -3 ∧
    ⌈(-7 / 3 : ℚ)⌉ = -2 ∧ Nearest (-7 / 3) (-2) := by
  have hn : Near (-7 / 3) := by
    have h1 : (-7 / 3 : ℚ).num = -7 := by decide +kernel
    have h2 : (-7 / 3 : ℚ).den = 3 := by decide +kernel
    unfold Near
    rw [h1, h2]
    exact ⟨by norm_num, le_trans (by norm_num) (Nat.pow_le_pow_right (by norm_num) (by norm_num : 2 ≤ 1072))⟩
  have hb : |(-7 / 3 : ℚ)| = 7 / 3 := by rw [abs_of_neg (by norm_num)]; norm_num
  refine ⟨hn, ?_, hn, ?_, ?_, ?_⟩
  · show |(-7 / 3 : ℚ)| < 2 ^ 53
    rw [hb]; norm_num
  · rw [Int.floor_eq_iff]; norm_num
  · rw [Int.ceil_eq_iff]; norm_num
  · unfold Nearest
    rw [show (-7 / 3 : ℚ) - ((-2 : Int) : ℚ) = -(1 / 3) by norm_num, abs_neg, abs_of_pos (by norm_num)]
    norm_num

example : Valid (.fl (.fin (5 / 2))) ∧ Good (.fl (.fin (5 / 2))) ∧ Nearest (5 / 2) 2 := by
  refine ⟨⟨5, -1, by norm_num, by norm_num, by norm_num, by norm_num⟩, ?_, ?_⟩
  · rintro (h | ⟨n, h, _⟩)
    · norm_num at h
    · have : ((2 * n : Int) : ℚ) = ((5 : Int) : ℚ) := by push_cast; linarith
      have : 2 * n = 5 := by exact_mod_cast this
      omega
  · unfold Nearest
    norm_num

/-- The double after 1/2 is rounded to 0. -/
theorem C68_half_violated : Valid (.fl (.fin (1 / 2 + 1 / 2 ^ 53))) ∧
    round (.fl (.fin (1 / 2 + 1 / 2 ^ 53))) = .ok (.fl (.fin 0)) ∧ Nearest (1 / 2 + 1 / 2 ^ 53) 1 := by
  refine ⟨⟨2 ^ 52 + 1, -53, by norm_num, by norm_num, by norm_num, by norm_num⟩, ?_, ?_⟩
  · have hlog : Int.log 2 |(1 / 2 + 1 / 2 ^ 53 + 1 / 2 : ℚ)| = 0 := by
      rw [abs_of_pos (by norm_num)]
      have a : Int.log 2 (1 / 2 + 1 / 2 ^ 53 + 1 / 2 : ℚ) < 1 := by
        rw [← Int.lt_zpow_iff_log_lt (by decide) (by norm_num)]; norm_num
      have b : 0 ≤ Int.log 2 (1 / 2 + 1 / 2 ^ 53 + 1 / 2 : ℚ) := by
        rw [← Int.zpow_le_iff_le_log (by decide) (by norm_num)]; norm_num
      omega
    have hu : ulp (1 / 2 + 1 / 2 ^ 53 + 1 / 2) = 1 / 2 ^ 52 := by unfold ulp expo; rw [hlog]; norm_num
    have hrn : rn (1 / 2 + 1 / 2 ^ 53 + 1 / 2) = 1 := by
      unfold rn
      rw [hu]
      have : nearest ((1 / 2 + 1 / 2 ^ 53 + 1 / 2) / (1 / 2 ^ 52)) = 2 ^ 52 := by
        refine Nearest.unique (nearest_spec _) ?_
        have e : (1 / 2 + 1 / 2 ^ 53 + 1 / 2 : ℚ) / (1 / 2 ^ 52) - ((2 ^ 52 : Int) : ℚ) = 1 / 2 := by norm_num
        unfold Nearest
        rw [e, abs_of_pos (by norm_num)]
        norm_num
      rw [this]
      norm_num
    show Res.ok (Number.fl (F64.round (.fin (1 / 2 + 1 / 2 ^ 53)))) = _
    rw [round_of_sum hrn ⟨1, 0, by norm_num, by norm_num, by norm_num, by norm_num⟩]
    simp
  · unfold Nearest
    have e : (1 / 2 + 1 / 2 ^ 53 : ℚ) - ((1 : Int) : ℚ) = -(1 / 2 - 1 / 2 ^ 53) := by norm_num
    rw [e, abs_neg, abs_of_pos (by norm_num)]
    norm_num

/-- Every odd integer between 2^52 and 2^53 is rounded to the next one, as a double. -/
theorem C68_odd_violated (n : Int) (h1 : 2 ^ 52 < |n|) (h2 : |n| < 2 ^ 53) (ho : n % 2 = 1) :
    Valid (.fl (.fin n)) ∧ round (.fl (.fin n)) = .ok (.fl (.fin ((n + 1 : Int) : ℚ))) ∧ Nearest n n := by
  refine ⟨double_int h2.le, ?_, ?_⟩
  · show Res.ok (Number.fl (F64.round (.fin n))) = _
    rw [round_odd h1 h2 ho]
  · unfold Nearest; simp

theorem log_eq {q : ℚ} {k : Int} (h1 : (2 : ℚ) ^ k ≤ |q|) (h2 : |q| < 2 ^ (k + 1)) : Int.log 2 |q| = k := by
  have hp : 0 < |q| := lt_of_lt_of_le (two_pos k) h1
  have a : Int.log 2 |q| < k + 1 := by rw [← Int.lt_zpow_iff_log_lt (by decide) hp]; exact_mod_cast h2
  have b : k ≤ Int.log 2 |q| := by rw [← Int.zpow_le_iff_le_log (by decide) hp]; exact_mod_cast h1
  omega

/-- -1 - 1/2^60 becomes -1.0: `floor` gives -1, and `ceiling` of the opposite gives 1. -/
theorem C68_floor_violated :
    floor (.ex (.rat (-1 - 1 / 2 ^ 60))) = .ok (.ex (.fix (-1))) ∧ ⌊(-1 - 1 / 2 ^ 60 : ℚ)⌋ = -2 ∧
      ceiling (.ex (.rat (1 + 1 / 2 ^ 60))) = .ok (.ex (.fix 1)) ∧ ⌈(1 + 1 / 2 ^ 60 : ℚ)⌉ = 2 := by
  have habs : |(1 + 1 / 2 ^ 60 : ℚ)| = 1 + 1 / 2 ^ 60 := abs_of_pos (by norm_num)
  have hu : ulp (1 + 1 / 2 ^ 60) = 1 / 2 ^ 52 := by
    unfold ulp expo
    rw [log_eq (k := 0) (by rw [habs]; norm_num) (by rw [habs]; norm_num)]
    norm_num
  have hrz : rz (1 + 1 / 2 ^ 60) = 1 := by
    unfold rz
    rw [hu]
    have : trunc ((1 + 1 / 2 ^ 60) / (1 / 2 ^ 52)) = 2 ^ 52 := by
      unfold trunc
      rw [if_pos (by norm_num), Int.floor_eq_iff]
      norm_num
    rw [this]
    norm_num
  have hrz' : rz (-1 - 1 / 2 ^ 60) = -1 := by
    rw [show (-1 - 1 / 2 ^ 60 : ℚ) = -(1 + 1 / 2 ^ 60) by ring, rz_neg, hrz]
  refine ⟨?_, ?_, ?_, ?_⟩
  · show makeLong (F64.floor (rtz _)) = _
    rw [rtz_eq (lt_big (by rw [hrz']; norm_num)), hrz']
    have := Int.floor_intCast (R := ℚ) (-1)
    show makeLong (.fin (⌊(-1 : ℚ)⌋ : ℚ)) = _
    have e : ⌊(-1 : ℚ)⌋ = -1 := by norm_num
    rw [e]
    rfl
  · rw [Int.floor_eq_iff]; norm_num
  · show makeLong (F64.ceil (rtz _)) = _
    rw [rtz_eq (lt_big (by rw [hrz]; norm_num)), hrz]
    show makeLong (.fin (⌈(1 : ℚ)⌉ : ℚ)) = _
    have e : ⌈(1 : ℚ)⌉ = 1 := by norm_num
    rw [e]
    rfl
  · rw [Int.ceil_eq_iff]; norm_num

/-- 2^55 + 9/4 becomes 2^55 as a double. -/
theorem C68_truncate_violated :
    truncate (.ex (.rat (2 ^ 55 + 9 / 4))) = .ok (.ex (.fix (2 ^ 55))) ∧ ⌊(2 ^ 55 + 9 / 4 : ℚ)⌋ = 2 ^ 55 + 2 := by
  have habs : |(2 ^ 55 + 9 / 4 : ℚ)| = 2 ^ 55 + 9 / 4 := abs_of_pos (by norm_num)
  have hu : ulp (2 ^ 55 + 9 / 4) = 8 := by
    unfold ulp expo
    rw [log_eq (k := 55) (by rw [habs]; norm_num) (by rw [habs]; norm_num)]
    norm_num
  have hrz : rz (2 ^ 55 + 9 / 4) = 2 ^ 55 := by
    unfold rz
    rw [hu]
    have : trunc ((2 ^ 55 + 9 / 4) / 8) = 2 ^ 52 := by
      unfold trunc
      rw [if_pos (by norm_num), Int.floor_eq_iff]
      norm_num
    rw [this]
    norm_num
  refine ⟨?_, ?_⟩
  · show makeLong (F64.truncate (rtz _)) = _
    rw [rtz_eq (lt_big (by rw [hrz, abs_of_pos (by norm_num)]; norm_num)), hrz, truncate_fin]
    have e : trunc (2 ^ 55 : ℚ) = 2 ^ 55 := by
      have := trunc_int (2 ^ 55)
      push_cast at this
      exact this
    rw [e]
    show (Rep.Number.clong (trunc ((2 ^ 55 : Int) : ℚ))).bind _ = _
    rw [trunc_int]
    decide +kernel
  · rw [Int.floor_eq_iff]; norm_num

/-- 2^64 + 1/2 as a `long`: undefined in all four functions. -/
theorem C68_long_violated :
    [floor, ceiling, truncate, round].map (fun f => f (.ex (.rat (2 ^ 64 + 1 / 2)))) = [.ub, .ub, .ub, .ub] := by
  have habs : |(2 ^ 64 + 1 / 2 : ℚ)| = 2 ^ 64 + 1 / 2 := abs_of_pos (by norm_num)
  have hu : ulp (2 ^ 64 + 1 / 2) = 2 ^ 12 := by
    unfold ulp expo
    rw [log_eq (k := 64) (by rw [habs]; norm_num) (by rw [habs]; norm_num)]
    norm_num
  have hrz : rz (2 ^ 64 + 1 / 2) = ((2 ^ 64 : Int) : ℚ) := by
    unfold rz
    rw [hu]
    have : trunc ((2 ^ 64 + 1 / 2) / 2 ^ 12) = 2 ^ 52 := by
      unfold trunc
      rw [if_pos (by norm_num), Int.floor_eq_iff]
      norm_num
    rw [this]
    norm_num
  have hr : rtz (2 ^ 64 + 1 / 2) = .fin ((2 ^ 64 : Int) : ℚ) := by
    have h65 : (2 : ℚ) ^ 65 < 2 ^ 1024 := pow_lt_pow_right₀ (by norm_num) (by norm_num)
    have hlt : |rz (2 ^ 64 + 1 / 2)| < 2 ^ 1024 := by
      refine lt_of_le_of_lt (rz_abs_le _) (lt_trans ?_ h65)
      rw [habs]
      norm_num
    rw [rtz_eq hlt, hrz]
  have hub : makeLong (.fin ((2 ^ 64 : Int) : ℚ)) = .ub := by
    show (Rep.Number.clong (trunc ((2 ^ 64 : Int) : ℚ))).bind _ = _
    rw [trunc_int]
    decide +kernel
  have hround : (F64.fin ((2 ^ 64 : Int) : ℚ)).round = .fin ((2 ^ 64 : Int) : ℚ) :=
    round_even ⟨1, 64, by norm_num, by norm_num, by norm_num, by norm_num⟩ (by norm_num) (by norm_num)
  simp only [List.map_cons, List.map_nil, floor, ceiling, truncate, round, hr, truncate_fin, trunc_int, hround, F64.floor, F64.ceil,
    Int.floor_intCast, Int.ceil_intCast, hub]

/-- 1/2 + 1/2^60 becomes 0.5, and is rounded to 0. -/
theorem C68_round_violated :
    round (.ex (.rat (1 / 2 + 1 / 2 ^ 60))) = .ok (.ex (.fix 0)) ∧ Nearest (1 / 2 + 1 / 2 ^ 60) 1 := by
  have habs : |(1 / 2 + 1 / 2 ^ 60 : ℚ)| = 1 / 2 + 1 / 2 ^ 60 := abs_of_pos (by norm_num)
  have hu : ulp (1 / 2 + 1 / 2 ^ 60) = 1 / 2 ^ 53 := by
    unfold ulp expo
    rw [log_eq (k := -1) (by rw [habs]; norm_num) (by rw [habs]; norm_num)]
    norm_num
  have hrz : rz (1 / 2 + 1 / 2 ^ 60) = 1 / 2 := by
    unfold rz
    rw [hu]
    have : trunc ((1 / 2 + 1 / 2 ^ 60) / (1 / 2 ^ 53)) = 2 ^ 52 := by
      unfold trunc
      rw [if_pos (by norm_num), Int.floor_eq_iff]
      norm_num
    rw [this]
    norm_num
  refine ⟨?_, ?_⟩
  · show makeLong (F64.round (rtz _)) = _
    rw [rtz_eq (lt_big (by rw [hrz]; norm_num)), hrz]
    rw [round_exact (by norm_num; exact ⟨1, 0, by norm_num, by norm_num, by norm_num, by norm_num⟩)]
    have : nearest (1 / 2) = 0 := by
      refine Nearest.unique (nearest_spec _) ?_
      unfold Nearest
      norm_num
    rw [this]
    show (Rep.Number.clong (trunc ((0 : Int) : ℚ))).bind _ = _
    rw [trunc_int]
    decide +kernel
  · unfold Nearest
    have e : (1 / 2 + 1 / 2 ^ 60 : ℚ) - ((1 : Int) : ℚ) = -(1 / 2 - 1 / 2 ^ 60) := by norm_num
    rw [e, abs_neg, abs_of_pos (by norm_num)]
    norm_num

end Rep.Dbl
