import Verif.Math.Model
import Verif.Math.Spec
import Verif.Num.Props
import Mathlib.Tactic.NormNum
import Mathlib.Tactic.Linarith

/-
C96  Sign, parity, absolute value and least common multiple (lisp/rep/lang/math.jl).
-/

namespace Rep.Math

open Rep.Number

/-! ### sign -/

def C96_sign_statement : Prop :=
  ∀ x, WF x → positivep x = .ok (decide (0 < value x)) ∧ negativep x = .ok (decide (value x < 0))

/-- `2^32` is not positive, `2^31` is negative. -/
theorem C96_sign_violated :
    positivep (.fix (2 ^ 32)) = .ok false ∧ negativep (.fix (2 ^ 31)) = .ok true ∧
      ¬ C96_sign_statement := by
  refine ⟨by decide, by decide, fun h => ?_⟩
  have := (h (.fix (2 ^ 32)) (by simp [WF])).1
  rw [show positivep (.fix (2 ^ 32)) = .ok false by decide, Res.ok.injEq] at this
  simp [value] at this

/-- Missing: fixnums that do not fit 32 bits. -/
theorem C96_sign_partial (x : Num) (hg : ∀ a, x = .fix a → -(2 ^ 31) ≤ a ∧ a < 2 ^ 31) :
    positivep x = .ok (decide (0 < value x)) ∧ negativep x = .ok (decide (value x < 0)) := by
  have hc : Comparable x (.fix 0) := by
    intro a b ha hb
    simp only [Num.fix.injEq] at hb
    have := hg a ha
    omega
  obtain ⟨_, h2, h3, _⟩ := C04_order_partial [x, .fix 0] (by simp) (by simpa using hc)
  refine ⟨?_, ?_⟩
  · unfold positivep; rw [h3, List.map_cons, List.map_cons, List.map_nil]
    simp [show value (.fix 0) = 0 from by simp [value]]
  · unfold negativep; rw [h2, List.map_cons, List.map_cons, List.map_nil]
    simp [show value (.fix 0) = 0 from by simp [value]]

example : positivep (.big (2 ^ 70)) = .ok true ∧ positivep (.fix (-3)) = .ok false ∧
    negativep (.rat (-1 / 2)) = .ok true := by decide +kernel

/-! ### parity -/

theorem mod_two (x : Num) (hxi : integerp x = true) :
    ∃ r, mod x (.fix 2) = .ok r ∧ integerp r = true ∧ (2 : Int) ∣ intValue x - intValue r ∧
      (intValue r).natAbs < 2 := by
  by_cases hg : ∃ a b, x = .big a ∧ Num.fix 2 = .fix b
  · obtain ⟨a, b, rfl, hb⟩ := hg
    exact C03_mod_big_fix_partial a 2 (by decide)
  · obtain ⟨r, h1, h2, h3, h4, _⟩ := C03_mod_partial x (.fix 2) (by simp [WF]) hxi rfl (by decide) hg
    obtain ⟨h5, h6⟩ := h4 (by decide)
    refine ⟨r, h1, h2, h3, ?_⟩
    have h6 : intValue r < 2 := h6
    omega

theorem zerop_int {x : Num} (h : integerp x = true) : zerop x = decide (intValue x = 0) := by
  cases x with
  | fix a => simp only [zerop, intValue]; rfl
  | big a => simp only [zerop, intValue]; rfl
  | rat q => cases h

/-- `oddp` and `evenp` are right for every integer, of any size. -/
theorem C96_parity (x : Num) (hxi : integerp x = true) :
    oddp x = .ok (decide (intValue x % 2 = 1)) ∧ evenp x = .ok (decide (intValue x % 2 = 0)) := by
  obtain ⟨r, h1, h2, h3, h4⟩ := mod_two x hxi
  unfold oddp evenp
  rw [h1]
  simp only [Res.bind, zerop_int h2, Res.ok.injEq]
  constructor
  · rw [Bool.eq_iff_iff]; simp only [Bool.not_eq_true', decide_eq_false_iff_not, decide_eq_true_eq]; omega
  · rw [Bool.eq_iff_iff]; simp only [decide_eq_true_eq]; omega

/-- A number that is not an integer has no parity: an error. -/
theorem C96_parity_rational (q : Rat) :
    oddp (.rat q) = .argError 1 ∧ evenp (.rat q) = .argError 1 := ⟨rfl, rfl⟩

example : oddp (.big (-(2 ^ 70) - 1)) = .ok true ∧ evenp (.fix (-4)) = .ok true ∧
    oddp (.fix (-3)) = .ok true := by decide +kernel

/-! ### absolute value -/

def C96_abs_statement : Prop :=
  ∀ x, WF x → ∃ v, abs x = .ok v ∧ WF v ∧ value v = |value x|

/-- The absolute value of `-2^31` is `-2^31`, that of `2^30` is `-2^30`. -/
theorem C96_abs_violated :
    abs (.fix (-(2 ^ 31))) = .ok (.fix (-(2 ^ 31))) ∧ abs (.fix (2 ^ 30)) = .ok (.fix (-(2 ^ 30))) ∧
      ¬ C96_abs_statement := by
  refine ⟨by decide, by decide, fun h => ?_⟩
  obtain ⟨v, h1, _, h2⟩ := h (.fix (2 ^ 30)) (by simp [WF])
  rw [show abs (.fix (2 ^ 30)) = .ok (.fix (-(2 ^ 30))) by decide, Res.ok.injEq] at h1
  subst h1
  simp [value] at h2
  norm_num at h2

theorem minus_eq_neg (x : Num) : minus [.num x] = neg x := rfl

/-- Missing: fixnums outside `[-2^30, 2^30)`. -/
theorem C96_abs_partial (x : Num) (hx : WF x) (hs : Small x) :
    ∃ v, abs x = .ok v ∧ WF v ∧ value v = |value x| := by
  obtain ⟨y, h1, h2, h3⟩ := C01_negate_exact x hx
  have hc : Comparable x y := by
    rintro a b rfl rfl
    have := hs a rfl
    simp only [value] at h3
    have : b = -a := by exact_mod_cast h3
    omega
  refine ⟨max2 x y, by unfold abs; rw [h1]; rfl, ?_, ?_⟩
  · unfold max2; split <;> assumption
  · rw [(C04_max_min_partial x y hc).1, h3]; rfl

/-- Whatever the argument, the result of `abs` is the argument or its negation: only the sign can
be wrong. -/
theorem C96_abs_magnitude (x : Num) (hx : WF x) :
    ∃ v, abs x = .ok v ∧ WF v ∧ |value v| = |value x| := by
  obtain ⟨y, h1, h2, h3⟩ := C01_negate_exact x hx
  refine ⟨max2 x y, by unfold abs; rw [h1]; rfl, ?_, ?_⟩
  · unfold max2; split <;> assumption
  · unfold max2; split
    · rfl
    · rw [h3, abs_neg]

example : Small (.fix (-5)) ∧ abs (.fix (-5)) = .ok (.fix 5) ∧
    abs (.big (-(2 ^ 70))) = .ok (.big (2 ^ 70)) ∧ abs (.rat (-2 / 3)) = .ok (.rat (2 / 3)) ∧
    abs (.fix (-(2 ^ 61))) = .ok (.big (2 ^ 61)) := by
  refine ⟨?_, by decide +kernel⟩
  intro a h; simp only [Num.fix.injEq] at h; omega

/-! ### least common multiple -/

def C96_lcm_statement : Prop :=
  ∀ x y, WF x → WF y → integerp x = true → integerp y = true →
    ∃ v, lcm [x, y] = .ok v ∧ integerp v = true ∧ IsLcm (intValue v) (intValue x) (intValue y)

theorem abs_int (x : Num) (hx : WF x) (hs : Small x) (hxi : integerp x = true) :
    ∃ v, abs x = .ok v ∧ integerp v = true ∧ WF v ∧ intValue v = |intValue x| ∧
      ∀ w, v = .fix w → 0 ≤ w ∧ w ≤ 2 ^ 30 := by
  obtain ⟨v, h1, h2, h3⟩ := C96_abs_partial x hx hs
  have hxv : value x = intValue x := by cases x <;> simp_all [value, intValue, integerp]
  have hi : integerp v = true := by
    rw [integerp_wf h2]; exact ⟨|intValue x|, by rw [h3, hxv]; simp⟩
  have hvv : value v = intValue v := by cases v <;> simp_all [value, intValue, integerp]
  have he : intValue v = |intValue x| := by
    rw [hvv, hxv] at h3; exact_mod_cast h3
  refine ⟨v, h1, hi, h2, he, ?_⟩
  rintro w rfl
  cases x with
  | fix a =>
    have := hs a rfl
    have he : w = |a| := he
    rw [he]
    exact ⟨abs_nonneg a, abs_le.2 ⟨this.1, by omega⟩⟩
  | big a =>
    exfalso
    simp only [abs, minus, neg, Res.bind, max2] at h1
    split at h1 <;> cases h1
  | rat q => cases hxi

theorem foldv_two (f : Num → Num → Res Num) (g : Num → Bool) (x y : Num) (hx : g x = true)
    (hy : g y = true) : foldv g f [.num x, .num y] = f x y := by
  simp only [foldv, foldArgs, hx, hy, if_true]

/-- `|x| |y| / gcd x y` is the least common multiple. -/
theorem isLcm_of (x y g : Int) (hx : x ≠ 0 ∨ y ≠ 0) (hg : g = Int.gcd x y) :
    IsLcm (Int.tdiv (|x| * |y|) g) x y := by
  have e : Int.tdiv (|x| * |y|) g = Int.lcm x y := by
    subst hg
    have hpos : 0 < Int.gcd x y := Int.gcd_pos_iff.2 hx
    have := Int.gcd_mul_lcm x y
    have h2 : |x| * |y| = (Int.gcd x y : Int) * (Int.lcm x y : Int) := by
      rw [← abs_mul, Int.abs_eq_natAbs, Int.natAbs_mul, ← this]; push_cast; rfl
    rw [h2, Int.mul_tdiv_cancel_left _ (by omega)]
  rw [e]
  exact ⟨by omega, Int.dvd_lcm_left .., Int.dvd_lcm_right .., fun k => Int.coe_lcm_dvd⟩

/-- The least common multiple of two integers, not both zero.  Missing: fixnums outside
`[-2^30, 2^30)`, two zeros, and calls with one argument or more than two. -/
theorem C96_lcm_partial (x y : Num) (hx : WF x) (hy : WF y) (hxs : Small x) (hys : Small y)
    (hxi : integerp x = true) (hyi : integerp y = true) (h0 : intValue x ≠ 0 ∨ intValue y ≠ 0) :
    ∃ v, lcm [x, y] = .ok v ∧ integerp v = true ∧ IsLcm (intValue v) (intValue x) (intValue y) := by
  obtain ⟨a, a1, a2, a3, a4, a5⟩ := abs_int x hx hxs hxi
  obtain ⟨b, b1, b2, b3, b4, b5⟩ := abs_int y hy hys hyi
  have hav : value a = intValue a := by cases a <;> simp_all [value, intValue, integerp]
  have hbv : value b = intValue b := by cases b <;> simp_all [value, intValue, integerp]
  obtain ⟨p, p1, p2, p3⟩ := C02_mul_exact_partial a b a3 b3 (by
    intro u w hu hw
    have := a5 u hu
    have := b5 w hw
    constructor
    · have : 0 ≤ u * w := mul_nonneg (by omega) (by omega)
      omega
    · have : u * w ≤ 2 ^ 30 * 2 ^ 30 := mul_le_mul (by omega) (by omega) (by omega) (by omega)
      omega)
  have hpi : integerp p = true := by
    rw [integerp_wf p3.wf]; exact ⟨intValue a * intValue b, by rw [p2, hav, hbv]; push_cast; rfl⟩
  have hpv : value p = intValue p := by cases p <;> simp_all [value, intValue, integerp]
  have hpe : intValue p = |intValue x| * |intValue y| := by
    rw [hpv, hav, hbv, a4, b4] at p2; exact_mod_cast p2
  obtain ⟨g, g1, g2, g3, g4, g5, g6⟩ := C07_gcd_partial x y hx hy hxi hyi (by
    rintro u w rfl rfl he
    have := hxs u rfl
    have := hys w rfl
    have hd : (Int.gcd u w : Int) ≤ 2 ^ 30 := by
      rcases h0 with h0 | h0
      · have := Int.gcd_le_natAbs_left w (show u ≠ 0 from h0); omega
      · have := Int.gcd_le_natAbs_right u (show w ≠ 0 from h0); omega
    omega)
  have hge : intValue g = Int.gcd (intValue x) (intValue y) := by
    apply Int.dvd_antisymm g3 (by omega)
    · exact Int.dvd_coe_gcd g4 g5
    · exact g6 _ (Int.gcd_dvd_left ..) (Int.gcd_dvd_right ..)
  have hpos : 0 < Int.gcd (intValue x) (intValue y) := Int.gcd_pos_iff.2 h0
  obtain ⟨q, q1, q2, q3, _⟩ := (quotient_int p3.wf hpi g2 (by omega) (by
    rintro ⟨_, rfl⟩
    simp only [intValue] at g3; omega)).out
  refine ⟨q, ?_, q2, ?_⟩
  · have hp : product [.num a, .num b] = .ok p := by
      rw [show product [.num a, .num b] = foldv anyNum mul [.num a, .num b] from rfl,
        foldv_two _ _ _ _ rfl rfl, p1]
    simp only [lcm, absAll, a1, b1, Res.bind, List.map_cons, List.map_nil, hp, g1, q1]
  · rw [q3, hpe]
    exact isLcm_of _ _ _ h0 hge

/-- One argument: the result is 1, whatever the (non-zero) argument. -/
theorem C96_lcm_one_violated (a : Int) (h0 : a ≠ 0) (hs : -(2 ^ 30) ≤ a ∧ a < 2 ^ 30) :
    lcm [.fix a] = .ok (.fix 1) := by
  obtain ⟨v, h1, h2, h3, h4, h5⟩ := abs_int (.fix a) (by simp only [WF]; omega)
    (by intro b h; simp only [Num.fix.injEq] at h; omega) rfl
  have hp : product [.num v] = .ok v := rfl
  have hg : gcdV [.num (.fix a)] = .ok (.fix |a|) := by
    simp only [gcdV, integerp, if_true, gcd, promoteDup, typeCode, gt_iff_lt, lt_irrefl,
        if_false, gcdLoop_eq, Nat.gcd_self]
    rw [makeInt_range (by omega), Int.abs_eq_natAbs]
  have hpos : 0 < |a| := abs_pos.2 h0
  obtain ⟨q, q1, q2, q3, q4⟩ := (quotient_int (x := v) (y := .fix |a|) h3 h2 rfl
    (by simp only [intValue]; omega) (by rintro ⟨_, h⟩; simp only [Num.fix.injEq] at h; omega)).out
  rw [h4] at q3
  have q3 : intValue q = 1 := by rw [q3]; exact Int.tdiv_self (by simp only [intValue]; omega)
  have : q = .fix 1 := by
    cases q with
    | fix b => rw [show b = 1 from q3]
    | big b => have q3 : b = 1 := q3; subst q3; exact absurd ⟨by omega, by omega⟩ q4
    | rat b => cases q2
  subst this
  simp only [lcm, absAll, h1, Res.bind, List.map_cons, List.map_nil, hp, hg, q1]

/-- `(lcm 5)` is 1; `(lcm 2 3 4)` is 24; `(lcm 0 0)` is an error; `(lcm 2^30 3)` is negative;
`(lcm 2^40 (2^40 + 1))` overflows. -/
theorem C96_lcm_violated :
    lcm [.fix 5] = .ok (.fix 1) ∧ lcm [.fix 2, .fix 3, .fix 4] = .ok (.fix 24) ∧
      lcm [.fix 0, .fix 0] = .arithError ∧ lcm [.fix (2 ^ 30), .fix 3] = .ok (.fix (-3221225472)) ∧
      lcm [.fix (2 ^ 40), .fix (2 ^ 40 + 1)] = .ub ∧ ¬ C96_lcm_statement := by
  have z : lcm [.fix 0, .fix 0] = .arithError := by
    simp [lcm, absAll, abs, minus, neg, clong, Res.bind, gcdV, foldv, foldArgs, integerp, gcd, promoteDup,
      typeCode, gcdLoop_eq]
    decide
  refine ⟨C96_lcm_one_violated 5 (by decide) (by omega), ?_, z, ?_, ?_, fun h => ?_⟩
  · simp [lcm, absAll, abs, minus, neg, clong, Res.bind, gcdV, foldv, foldArgs, integerp, gcd, promoteDup,
      typeCode, gcdLoop_eq]
    decide
  · simp [lcm, absAll, abs, minus, neg, clong, Res.bind, gcdV, foldv, foldArgs, integerp, gcd, promoteDup,
      typeCode, gcdLoop_eq]
    decide
  · rfl
  · obtain ⟨v, h1, _⟩ := h (.fix 0) (.fix 0) (by simp [WF]) (by simp [WF]) rfl rfl
    rw [z] at h1; cases h1

/-- A call without arguments. -/
example : lcm [] = .ok (.fix 1) := rfl

example : ∃ v, lcm [.fix (-4), .fix 6] = .ok v ∧ integerp v = true ∧ IsLcm (intValue v) (-4) 6 :=
  C96_lcm_partial (.fix (-4)) (.fix 6) (by simp [WF]) (by simp [WF])
    (by intro b h; simp only [Num.fix.injEq] at h; omega)
    (by intro b h; simp only [Num.fix.injEq] at h; omega) rfl rfl (by decide)

end Rep.Math
