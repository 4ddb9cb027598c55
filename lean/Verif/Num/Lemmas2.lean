import Verif.Num.Lemmas
import Mathlib.Data.Rat.Floor
import Mathlib.Tactic.Linarith

namespace Rep.Number

/-! ### folding over argument lists -/

theorem foldArgs_exact {op : Num → Num → Res Num} {f : Rat → Rat → Rat}
    (hop : ∀ x y, WF x → WF y → IsExactly (op x y) (f (value x) (value y))) :
    ∀ (l : List Num) (s : Num) (i : Nat), WF s → (∀ n ∈ l, WF n) →
      ∃ v, foldArgs anyNum op (.ok s) i (l.map .num) = .ok v ∧ WF v ∧
        value v = (l.map value).foldl f (value s) ∧ (l ≠ [] → Canonical v) := by
  intro l
  induction l with
  | nil => intro s i hs _; exact ⟨s, rfl, hs, rfl, fun h => absurd rfl h⟩
  | cons n rest ih =>
    intro s i hs hl
    obtain ⟨w, hw, hv, hc⟩ := hop s n hs (hl n (by simp))
    obtain ⟨v, h1, h2, h3, h4⟩ := ih w (i + 1) hc.wf (fun m hm => hl m (by simp [hm]))
    refine ⟨v, ?_, h2, ?_, ?_⟩
    · simp only [List.map_cons, foldArgs, anyNum, if_true, hw]
      exact h1
    · rw [h3, hv]; rfl
    · intro _
      cases rest with
      | nil =>
        simp only [List.map_nil, foldArgs, Res.ok.injEq] at h1
        exact h1 ▸ hc
      | cons a b => exact h4 (by simp)

theorem foldl_add_sum (l : List Rat) (s : Rat) : l.foldl (· + ·) s = s + l.sum := by
  induction l generalizing s with
  | nil => simp
  | cons a l ih => simp only [List.foldl_cons, ih, List.sum_cons]; ring

theorem foldl_sub_sum (l : List Rat) (s : Rat) : l.foldl (· - ·) s = s - l.sum := by
  induction l generalizing s with
  | nil => simp
  | cons a l ih => simp only [List.foldl_cons, ih, List.sum_cons]; ring

/-! ### division -/

theorem ratDiv_den_ne_one {a b : Int} (hb : b ≠ 0) (h : Int.tmod a b ≠ 0) :
    ((a : Rat) / (b : Rat)).den ≠ 1 := by
  intro hd
  apply h
  rw [Rat.den_eq_one_iff] at hd
  have hb' : (b : Rat) ≠ 0 := by exact_mod_cast hb
  rw [eq_div_iff hb'] at hd
  have : ((a : Rat) / (b : Rat)).num * b = a := by exact_mod_cast hd
  rw [← this]
  exact Int.mul_tmod_left _ _

theorem tdiv_exact {a b : Int} (hb : b ≠ 0) (h : Int.tmod a b = 0) :
    ((Int.tdiv a b : Int) : Rat) = (a : Rat) / (b : Rat) := by
  have hb' : (b : Rat) ≠ 0 := by exact_mod_cast hb
  rw [eq_div_iff hb']
  have := Int.tmod_add_tdiv_mul a b
  rw [h, Int.zero_add] at this
  exact_mod_cast this

theorem tdiv_range {a b : Int} (ha : -(2 ^ 61) ≤ a ∧ a < 2 ^ 61)
    (h : ¬ (a = -(2 ^ 61) ∧ b = -1)) : -(2 ^ 61) ≤ Int.tdiv a b ∧ Int.tdiv a b < 2 ^ 61 := by
  have hle : (Int.tdiv a b).natAbs ≤ a.natAbs := by
    rw [Int.natAbs_tdiv]; exact Nat.div_le_self _ _
  by_cases h1 : a = -(2 ^ 61)
  · have hb : b ≠ -1 := fun hb => h ⟨h1, hb⟩
    have key : (Int.tdiv a b) ≠ 2 ^ 61 := by
      intro he
      have h2 : (Int.tdiv a b).natAbs = a.natAbs / b.natAbs := Int.natAbs_tdiv a b
      rw [he, h1] at h2
      have h3 : (2 ^ 61 : Int).natAbs = 2 ^ 61 := by decide
      have h4 : (-(2 ^ 61) : Int).natAbs = 2 ^ 61 := by decide
      rw [h3, h4] at h2
      have hb1 : b.natAbs = 1 := by
        by_contra hne
        rcases Nat.lt_or_ge b.natAbs 2 with hlt | hge
        · have : b.natAbs = 0 := by omega
          rw [this] at h2; simp at h2
        · have : 2 ^ 61 / b.natAbs ≤ 2 ^ 61 / 2 := Nat.div_le_div_left hge (by norm_num)
          omega
      have : b = 1 ∨ b = -1 := by omega
      rcases this with rfl | rfl
      · rw [h1] at he; simp at he
      · exact hb rfl
    omega
  · omega

theorem tmod_range {a b : Int} (ha : -(2 ^ 61) ≤ a ∧ a < 2 ^ 61) :
    -(2 ^ 61) ≤ Int.tmod a b ∧ Int.tmod a b < 2 ^ 61 := by
  have hle : (Int.tmod a b).natAbs ≤ a.natAbs := by
    rw [Int.natAbs_tmod]; exact Nat.mod_le _ _
  have hs : 0 ≤ a → 0 ≤ Int.tmod a b := fun h => Int.tmod_nonneg b h
  have hs2 : a ≤ 0 → Int.tmod a b ≤ 0 := by
    intro h
    have := Int.tmod_nonneg b (a := -a) (by omega)
    rw [Int.neg_tmod] at this
    omega
  omega

theorem div_exact {x y : Num} (hx : WF x) (hy : WF y) (h0 : value y ≠ 0)
    (hg : ¬ (x = .fix (-(2 ^ 61)) ∧ y = .fix (-1))) : IsExactly (div x y) (value x / value y) := by
  have hz : zerop y = false := by
    cases y <;> simp_all [zerop, value]
  unfold div
  rw [hz]
  simp only [Bool.false_eq_true, if_false]
  cases x with
  | fix a =>
    cases y with
    | fix b =>
      have hb : b ≠ 0 := by simpa [value] using h0
      simp only [promoteDup, typeCode, gt_iff_lt, lt_irrefl, if_false]
      split
      · rename_i ht
        have hr : -(2 ^ 61) ≤ Int.tdiv a b ∧ Int.tdiv a b < 2 ^ 61 := by
          apply tdiv_range hx
          rintro ⟨rfl, rfl⟩
          exact hg ⟨rfl, rfl⟩
        refine ⟨_, rfl, ?_, ?_⟩
        · rw [makeInt_range hr]; exact tdiv_exact hb ht
        · rw [makeInt_range hr]; exact hr
      · rename_i ht
        have e : (if b < 0 then -((a : Rat) / ((-b : Int) : Rat)) else (a : Rat) / (b : Rat)) = (a : Rat) / (b : Rat) := by
          split
          · push_cast; rw [div_neg, neg_neg]
          · rfl
        rw [e]
        exact ⟨_, rfl, rfl, ratDiv_den_ne_one hb ht⟩
    | big b =>
      have hb : b ≠ 0 := by simpa [value] using h0
      simp only [promoteDup, typeCode, promoteTo]
      simp
      split
      · rename_i ht
        rw [maybeDemote_big]
        have := isExactly_long (Int.tdiv a b)
        rw [tdiv_exact hb ht] at this
        exact this
      · rename_i ht
        exact ⟨_, rfl, rfl, ratDiv_den_ne_one hb ht⟩
    | rat b =>
      simp only [promoteDup, typeCode, promoteTo]
      simp
      exact isExactly_rat _
  | big a =>
    cases y with
    | fix b =>
      have hb : b ≠ 0 := by simpa [value] using h0
      simp only [promoteDup, typeCode, promoteTo]
      simp
      split
      · rename_i ht
        rw [maybeDemote_big]
        have := isExactly_long (Int.tdiv a b)
        rw [tdiv_exact hb ht] at this
        exact this
      · rename_i ht
        exact ⟨_, rfl, rfl, ratDiv_den_ne_one hb ht⟩
    | big b =>
      have hb : b ≠ 0 := by simpa [value] using h0
      simp only [promoteDup, typeCode, promoteTo]
      simp
      split
      · rename_i ht
        rw [maybeDemote_big]
        have := isExactly_long (Int.tdiv a b)
        rw [tdiv_exact hb ht] at this
        exact this
      · rename_i ht
        exact ⟨_, rfl, rfl, ratDiv_den_ne_one hb ht⟩
    | rat b =>
      simp only [promoteDup, typeCode, promoteTo]
      simp
      exact isExactly_rat _
  | rat a =>
    cases y <;> simp only [promoteDup, typeCode, promoteTo] <;> simp <;> exact isExactly_rat _

theorem integerp_wf {x : Num} (hx : WF x) : integerp x = true ↔ IsInteger x := by
  cases x with
  | fix w => simp [integerp, IsInteger, value]
  | big w => simp [integerp, IsInteger, value]
  | rat q =>
    simp only [integerp, IsInteger, value, Bool.false_eq_true, false_iff]
    rintro ⟨z, rfl⟩
    simp [WF] at hx

/-- The result is the integer `z` as a canonical object. -/
def IsInt (r : Res Num) (z : Int) : Prop := ∃ v, r = .ok v ∧ value v = z ∧ Canonical v

theorem isInt_long (x : Int) : IsInt (.ok (makeLongInt x)) x := isExactly_long x

theorem isInt_make {x : Int} (h : -(2 ^ 61) ≤ x ∧ x < 2 ^ 61) : IsInt (.ok (makeInt x)) x := by
  rw [makeInt_range h]; exact ⟨_, rfl, rfl, h⟩

theorem quotient_int {x y : Num} (hx : WF x) (hxi : integerp x = true) (hyi : integerp y = true)
    (h0 : intValue y ≠ 0) (hg : ¬ (x = .fix (-(2 ^ 61)) ∧ y = .fix (-1))) :
    IsInt (quotient x y) (Int.tdiv (intValue x) (intValue y)) := by
  have hz : zerop y = false := by cases y <;> simp_all [zerop, intValue, integerp]
  unfold quotient
  rw [hz, hxi, hyi]
  simp only [Bool.not_true, Bool.false_eq_true, if_false]
  cases x <;> cases y <;> simp only [integerp, Bool.false_eq_true] at hxi hyi <;>
    simp only [promoteDup, typeCode, promoteTo, intValue, maybeDemote_big] <;> simp <;>
    first
    | exact isInt_long _
    | (refine isInt_make (tdiv_range hx ?_); rintro ⟨rfl, rfl⟩; exact hg ⟨rfl, rfl⟩)

theorem remainder_int {x y : Num} (hx : WF x) (hxi : integerp x = true) (hyi : integerp y = true)
    (h0 : intValue y ≠ 0) :
    IsInt (remainder x y) (Int.tmod (intValue x) (intValue y)) := by
  have hz : zerop y = false := by cases y <;> simp_all [zerop, intValue, integerp]
  unfold remainder
  rw [hz]
  simp only [Bool.false_eq_true, if_false]
  cases x <;> cases y <;> simp only [integerp, Bool.false_eq_true] at hxi hyi <;>
    simp only [promoteDup, typeCode, promoteTo, intValue, maybeDemote_big] <;> simp <;>
    first
    | exact isInt_long _
    | exact isInt_make (tmod_range hx)

theorem tmod_fix_eq_fmod {a b : Int} (hb : b ≠ 0) :
    (if (if b < 0 then Int.tmod a b > 0 else Int.tmod a b < 0) then Int.tmod a b + b else Int.tmod a b)
      = Int.fmod a b := by
  have hd : Int.tmod a b = 0 ↔ b ∣ a := ⟨Int.dvd_of_tmod_eq_zero, Int.tmod_eq_zero_of_dvd⟩
  rw [Int.fmod_eq_tmod]
  by_cases h : b ∣ a
  · simp [h, hd.2 h]
  · have hne : Int.tmod a b ≠ 0 := fun e => h (hd.1 e)
    simp only [h, if_false]
    have hs1 : 0 ≤ a → 0 ≤ Int.tmod a b := fun h => Int.tmod_nonneg b h
    have hs2 : a ≤ 0 → Int.tmod a b ≤ 0 := by
      intro h
      have := Int.tmod_nonneg b (a := -a) (by omega)
      rw [Int.neg_tmod] at this
      omega
    by_cases ha : 0 ≤ a <;> by_cases hb0 : b < 0
    · simp only [ha, hb0, if_true]
      have : ¬ (0 ≤ b) := by omega
      simp only [this, if_false]
      rw [if_pos]; have := hs1 ha; omega
    · simp only [ha, hb0, if_true, if_false]
      have : (0 ≤ b) := by omega
      simp only [this, if_true]
      rw [if_neg]
      · omega
      · have := hs1 ha; omega
    · simp only [ha, hb0, if_true, if_false]
      have : ¬ (0 ≤ b) := by omega
      simp only [this, if_false]
      rw [if_neg]
      · omega
      · have := hs2 (by omega); omega
    · simp only [ha, hb0, if_false]
      have : (0 ≤ b) := by omega
      simp only [this, if_true]
      rw [if_pos]
      · omega
      · have := hs2 (by omega); omega

theorem fmod_bounds (a : Int) {b : Int} (hb : b ≠ 0) :
    (0 < b → 0 ≤ Int.fmod a b ∧ Int.fmod a b < b) ∧ (b < 0 → b < Int.fmod a b ∧ Int.fmod a b ≤ 0) := by
  constructor
  · intro h; exact ⟨Int.fmod_nonneg_of_pos a h, Int.fmod_lt_of_pos a h⟩
  · intro h
    have h1 : Int.fmod (-a) (-b) = -(Int.fmod a b) := by rw [Int.neg_fmod_neg]
    have h2 := Int.fmod_nonneg_of_pos (-a) (b := -b) (by omega)
    have h3 := Int.fmod_lt_of_pos (-a) (b := -b) (by omega)
    omega

theorem mod_int {x y : Num} (hy : WF y) (hxi : integerp x = true) (hyi : integerp y = true)
    (h0 : intValue y ≠ 0) (hg : ¬ ∃ a b, x = .big a ∧ y = .fix b) :
    IsInt (mod x y) (Int.fmod (intValue x) (intValue y)) := by
  have hz : zerop y = false := by cases y <;> simp_all [zerop, intValue, integerp]
  unfold mod
  rw [hz]
  simp only [Bool.false_eq_true, if_false]
  cases x with
  | fix a =>
    cases y with
    | fix b =>
      simp only [promoteDup, typeCode, intValue, gt_iff_lt, lt_irrefl, if_false]
      have := tmod_fix_eq_fmod (a := a) (b := b) h0
      simp only [gt_iff_lt] at this
      rw [this]
      refine isInt_make ?_
      have := fmod_bounds a (b := b) h0
      simp only [WF] at hy
      rcases Int.lt_or_lt_of_ne h0 with h | h
      · have := this.2 h; simp only [intValue] at h; omega
      · have := this.1 h; simp only [intValue] at h; omega
    | big b =>
      have e := tmod_fix_eq_fmod (a := a) (b := b) h0
      simp only [promoteDup, typeCode, promoteTo, intValue]
      simp only [Nat.not_lt_zero, gt_iff_lt, if_false, Nat.lt_one_iff, if_true, ge_iff_le, Nat.le_zero_eq,
        one_ne_zero, reduceCtorEq, e, maybeDemote_big]
      exact isInt_long _
    | rat b => simp [integerp] at hyi
  | big a =>
    cases y with
    | fix b => exact absurd ⟨a, b, rfl, rfl⟩ hg
    | big b =>
      have e := tmod_fix_eq_fmod (a := a) (b := b) h0
      simp only [gt_iff_lt] at e
      simp only [promoteDup, typeCode, intValue, gt_iff_lt, lt_irrefl, if_false, reduceCtorEq, e, maybeDemote_big]
      exact isInt_long _
    | rat b => simp [integerp] at hyi
  | rat a => simp [integerp] at hxi

/-- What `mod` computes for a bignum dividend and a fixnum divisor: the truncated remainder. -/
theorem mod_big_fix (a b : Int) (h0 : b ≠ 0) :
    mod (.big a) (.fix b) = .ok (makeLongInt (Int.tmod a b)) := by
  have hz : zerop (.fix b) = false := by simp [zerop, h0]
  unfold mod
  rw [hz]
  simp only [promoteDup, typeCode, promoteTo]
  simp only [Bool.false_eq_true, if_false, gt_iff_lt, Nat.lt_one_iff, if_true, ge_iff_le, Nat.le_zero_eq,
    one_ne_zero, reduceCtorEq, maybeDemote_big]
  congr 2
  split
  · split <;> omega
  · rfl

/-! ### comparison -/

theorem toCInt_small {x : Int} (h : -(2 ^ 31) ≤ x ∧ x < 2 ^ 31) : toCInt x = x := by
  unfold toCInt
  rw [Int.bmod_eq_of_le]
  · exact_mod_cast by omega
  · exact_mod_cast by omega

/-- Operands whose comparison does not lose information: not both fixnums, or
close enough for the difference to fit an `int`. -/
def Comparable (x y : Num) : Prop :=
  ∀ a b, x = .fix a → y = .fix b → -(2 ^ 31) ≤ a - b ∧ a - b < 2 ^ 31

theorem cmpSign_spec {α : Type} [LinearOrder α] (a b : α) :
    (cmpSign a b < 0 ↔ a < b) ∧ (cmpSign a b = 0 ↔ a = b) := by
  unfold cmpSign
  rcases lt_trichotomy a b with h | h | h
  · simp [h, h.ne]
  · simp [h]
  · simp [h, h.ne', not_lt.2 h.le]

theorem compare_spec {x y : Num} (h : Comparable x y) :
    (compare x y < 0 ↔ value x < value y) ∧ (compare x y = 0 ↔ value x = value y) := by
  cases x with
  | fix a =>
    cases y with
    | fix b =>
      have := h a b rfl rfl
      simp only [compare, promoteDup, typeCode, value, gt_iff_lt, lt_irrefl, if_false]
      rw [toCInt_small this]
      constructor
      · rw [Int.cast_lt]; omega
      · rw [Int.cast_inj]; omega
    | big b =>
      simp only [compare, promoteDup, typeCode, promoteTo, value]
      simp
      exact cmpSign_spec a b
    | rat b =>
      simp only [compare, promoteDup, typeCode, promoteTo, value]
      simp
      exact cmpSign_spec (a : Rat) b
  | big a =>
    cases y with
    | fix b =>
      simp only [compare, promoteDup, typeCode, promoteTo, value]
      simp
      exact cmpSign_spec a b
    | big b =>
      simp only [compare, promoteDup, typeCode, value]
      simp
      exact cmpSign_spec a b
    | rat b =>
      simp only [compare, promoteDup, typeCode, promoteTo, value]
      simp
      exact cmpSign_spec (a : Rat) b
  | rat a =>
    cases y <;> simp only [compare, promoteDup, typeCode, promoteTo, value] <;> simp <;>
      exact cmpSign_spec a _

theorem valueCmp_spec {x y : Num} (h : Comparable x y) :
    (valueCmp x y < 0 ↔ value x < value y) ∧ (valueCmp x y = 0 ↔ value x = value y) := by
  unfold valueCmp
  split
  · rename_i he; subst he; simp
  · exact compare_spec h

/-! ### bitwise operations -/

theorem getElem_ldiff (w m n i : Nat) (hi : i < w) :
    (BitVec.ofNat w (Nat.ldiff m n))[i] = ((BitVec.ofNat w m)[i] && !(BitVec.ofNat w n)[i]) := by
  simp only [BitVec.getElem_eq_testBit_toNat, BitVec.toNat_ofNat, Nat.testBit_mod_two_pow, hi,
    decide_true, Bool.true_and, Nat.testBit_ldiff]

theorem ofInt_land (w : Nat) (a b : Int) :
    BitVec.ofInt w (Int.land a b) = BitVec.ofInt w a &&& BitVec.ofInt w b := by
  apply BitVec.eq_of_getLsbD_eq
  intro i hi
  cases a <;> cases b <;> simp [Int.land, hi, getElem_ldiff, Bool.and_comm]

theorem ofInt_lor (w : Nat) (a b : Int) :
    BitVec.ofInt w (Int.lor a b) = BitVec.ofInt w a ||| BitVec.ofInt w b := by
  apply BitVec.eq_of_getLsbD_eq
  intro i hi
  cases a <;> cases b <;> simp [Int.lor, hi, getElem_ldiff, Bool.and_comm]

theorem ofInt_xor (w : Nat) (a b : Int) :
    BitVec.ofInt w (Int.xor a b) = BitVec.ofInt w a ^^^ BitVec.ofInt w b := by
  apply BitVec.eq_of_getLsbD_eq
  intro i hi
  cases a <;> cases b <;> simp [Int.xor, hi]

theorem ofInt_lnot (w : Nat) (a : Int) :
    BitVec.ofInt w (Int.lnot a) = ~~~ BitVec.ofInt w a := by
  apply BitVec.eq_of_getLsbD_eq
  intro i hi
  cases a <;> simp [Int.lnot, hi]

/-- The integers representable in `n + 1` bits. -/
def Fits (n : Nat) (z : Int) : Prop := -(2 ^ n) ≤ z ∧ z < 2 ^ n

theorem fits_ofNat {n m : Nat} : Fits n (m : Int) ↔ m < 2 ^ n := by
  unfold Fits
  have : (0 : Int) < 2 ^ n := by positivity
  constructor
  · rintro ⟨_, h⟩; exact_mod_cast h
  · intro h
    have : (m : Int) < 2 ^ n := by exact_mod_cast h
    omega

theorem fits_negSucc {n m : Nat} : Fits n (Int.negSucc m) ↔ m < 2 ^ n := by
  unfold Fits
  have hp : (0 : Int) < 2 ^ n := by positivity
  rw [Int.negSucc_eq]
  constructor
  · rintro ⟨h, _⟩
    have : (m : Int) < 2 ^ n := by omega
    exact_mod_cast this
  · intro h
    have : (m : Int) < 2 ^ n := by exact_mod_cast h
    omega

theorem ldiff_lt {m n k : Nat} (h : m < 2 ^ k) : Nat.ldiff m n < 2 ^ k := by
  apply Nat.lt_of_testBit k
  · rw [Nat.testBit_ldiff, Nat.testBit_lt_two_pow h]; rfl
  · simp
  · intro j hj
    rw [Nat.testBit_ldiff, Nat.testBit_lt_two_pow (h.trans (Nat.pow_lt_pow_right (by omega) hj))]
    rw [Nat.testBit_two_pow_of_ne (by omega)]
    rfl

theorem fits_land {n : Nat} {a b : Int} (ha : Fits n a) (hb : Fits n b) : Fits n (Int.land a b) := by
  cases a <;> cases b <;> simp only [Int.ofNat_eq_natCast, Int.land] at * <;>
    simp only [fits_ofNat, fits_negSucc] at * <;>
    first
    | exact fits_ofNat.2 (Nat.and_lt_two_pow _ hb)
    | exact Nat.and_lt_two_pow _ hb
    | exact Nat.or_lt_two_pow ha hb
    | exact ldiff_lt ha
    | exact ldiff_lt hb

theorem fits_lor {n : Nat} {a b : Int} (ha : Fits n a) (hb : Fits n b) : Fits n (Int.lor a b) := by
  cases a <;> cases b <;> simp only [Int.ofNat_eq_natCast, Int.lor] at * <;>
    simp only [fits_ofNat, fits_negSucc] at * <;>
    first
    | exact fits_ofNat.2 (Nat.or_lt_two_pow ha hb)
    | exact Nat.or_lt_two_pow ha hb
    | exact Nat.and_lt_two_pow _ hb
    | exact ldiff_lt ha
    | exact ldiff_lt hb

theorem fits_xor {n : Nat} {a b : Int} (ha : Fits n a) (hb : Fits n b) : Fits n (Int.xor a b) := by
  cases a <;> cases b <;> simp only [Int.ofNat_eq_natCast, Int.xor] at * <;>
    simp only [fits_ofNat, fits_negSucc] at * <;>
    first
    | exact fits_ofNat.2 (Nat.xor_lt_two_pow ha hb)
    | exact Nat.xor_lt_two_pow ha hb

theorem fits_lnot {n : Nat} {a : Int} (ha : Fits n a) : Fits n (Int.lnot a) := by
  cases a <;> simp only [Int.ofNat_eq_natCast, Int.lnot] at * <;>
    simp only [fits_ofNat, fits_negSucc] at * <;> exact ha

theorem makeInt_bits {z : Int} (h : Fits 61 z) : makeInt (BitVec.ofInt 64 z).toInt = .fix z := by
  have h' : -(2 ^ 61) ≤ z ∧ z < 2 ^ 61 := h
  rw [BitVec.toInt_ofInt_eq_self (by omega) (by norm_num; omega) (by norm_num; omega)]
  exact makeInt_range h'

theorem int_testBit_inj {a b : Int} (h : ∀ i, a.testBit i = b.testBit i) : a = b := by
  have key : ∀ m n : Nat, ¬ ∀ i, (Int.ofNat m).testBit i = (Int.negSucc n).testBit i := by
    intro m n h
    have h1 := h (m + n)
    have hm : Nat.testBit m (m + n) = false :=
      Nat.testBit_lt_two_pow (Nat.lt_of_lt_of_le Nat.lt_two_pow_self (Nat.pow_le_pow_right (by omega) (by omega)))
    have hn : Nat.testBit n (m + n) = false :=
      Nat.testBit_lt_two_pow (Nat.lt_of_lt_of_le Nat.lt_two_pow_self (Nat.pow_le_pow_right (by omega) (by omega)))
    simp [Int.testBit, hm, hn] at h1
  cases a with
  | ofNat m =>
    cases b with
    | ofNat n => exact congrArg Int.ofNat (Nat.eq_of_testBit_eq h)
    | negSucc n => exact absurd h (key m n)
  | negSucc m =>
    cases b with
    | ofNat n => exact absurd (fun i => (h i).symm) (key n m)
    | negSucc n =>
      refine congrArg Int.negSucc (Nat.eq_of_testBit_eq fun i => ?_)
      have := h i
      simpa [Int.testBit] using this

theorem logand_int {x y : Num} (hx : WF x) (hy : WF y) (hxi : integerp x = true)
    (hyi : integerp y = true) :
    ∃ v, logand x y = .ok v ∧ WF v ∧ integerp v = true ∧ intValue v = Int.land (intValue x) (intValue y) := by
  cases x <;> cases y <;> simp only [integerp, Bool.false_eq_true] at hxi hyi <;>
    first
    | exact ⟨_, rfl, trivial, rfl, rfl⟩
    | (refine ⟨_, rfl, ?_⟩
       rw [← ofInt_land, makeInt_bits (fits_land hx hy)]; exact ⟨fits_land hx hy, rfl, rfl⟩)

theorem logior_int {x y : Num} (hx : WF x) (hy : WF y) (hxi : integerp x = true)
    (hyi : integerp y = true) :
    ∃ v, logior x y = .ok v ∧ WF v ∧ integerp v = true ∧ intValue v = Int.lor (intValue x) (intValue y) := by
  cases x <;> cases y <;> simp only [integerp, Bool.false_eq_true] at hxi hyi <;>
    first
    | exact ⟨_, rfl, trivial, rfl, rfl⟩
    | (refine ⟨_, rfl, ?_⟩
       rw [← ofInt_lor, makeInt_bits (fits_lor hx hy)]; exact ⟨fits_lor hx hy, rfl, rfl⟩)

theorem xor_via_and_or (a b : Int) :
    Int.land (Int.lnot (Int.land a b)) (Int.lor a b) = Int.xor a b := by
  apply int_testBit_inj
  intro i
  rw [Int.testBit_land, Int.testBit_lnot, Int.testBit_land, Int.testBit_lor, Int.testBit_lxor]
  cases a.testBit i <;> cases b.testBit i <;> rfl

theorem logxor_int {x y : Num} (hx : WF x) (hy : WF y) (hxi : integerp x = true)
    (hyi : integerp y = true) :
    ∃ v, logxor x y = .ok v ∧ WF v ∧ integerp v = true ∧ intValue v = Int.xor (intValue x) (intValue y) := by
  cases x <;> cases y <;> simp only [integerp, Bool.false_eq_true] at hxi hyi <;>
    first
    | exact ⟨_, rfl, trivial, rfl, xor_via_and_or _ _⟩
    | (refine ⟨_, rfl, ?_⟩
       rw [← ofInt_xor, makeInt_bits (fits_xor hx hy)]; exact ⟨fits_xor hx hy, rfl, rfl⟩)

theorem lognot_int {x : Num} (hx : WF x) (hxi : integerp x = true) :
    ∃ v, lognot x = .ok v ∧ WF v ∧ integerp v = true ∧ intValue v = Int.lnot (intValue x) := by
  cases x <;> simp only [integerp, Bool.false_eq_true] at hxi
  · refine ⟨_, rfl, ?_⟩
    rw [← ofInt_lnot, makeInt_bits (fits_lnot hx)]; exact ⟨fits_lnot hx, rfl, rfl⟩
  · exact ⟨_, rfl, trivial, rfl, rfl⟩

/-- Folding an operation on integer objects over an argument list. -/
theorem foldArgs_int {ok? : Num → Bool} {op : Num → Num → Res Num} {f : Int → Int → Int}
    (hok : ∀ x, integerp x = true → ok? x = true)
    (hop : ∀ x y, WF x → WF y → integerp x = true → integerp y = true →
      ∃ v, op x y = .ok v ∧ WF v ∧ integerp v = true ∧ intValue v = f (intValue x) (intValue y)) :
    ∀ (l : List Num) (s : Num) (i : Nat), WF s → integerp s = true →
      (∀ n ∈ l, WF n ∧ integerp n = true) →
      ∃ v, foldArgs ok? op (.ok s) i (l.map .num) = .ok v ∧ WF v ∧ integerp v = true ∧
        intValue v = (l.map intValue).foldl f (intValue s) := by
  intro l
  induction l with
  | nil => intro s i hs hi _; exact ⟨s, rfl, hs, hi, rfl⟩
  | cons n rest ih =>
    intro s i hs hi hl
    obtain ⟨hn, hni⟩ := hl n (by simp)
    obtain ⟨w, hw, hwf, hwi, hv⟩ := hop s n hs hn hi hni
    obtain ⟨v, h1, h2, h3, h4⟩ := ih w (i + 1) hwf hwi (fun m hm => hl m (by simp [hm]))
    refine ⟨v, ?_, h2, h3, ?_⟩
    · simp only [List.map_cons, foldArgs, hok n hni, if_true, hw]
      exact h1
    · rw [h4, hv]; rfl

/-! ### shifts -/

theorem ashBig_right (a : Int) (k : Nat) :
    ashBig a (-(k : Int)) = makeLongInt (Int.fdiv a (2 ^ k)) := by
  unfold ashBig
  have : ¬ (-(k : Int) > 0) := by omega
  rw [if_neg this, maybeDemote_big]
  simp

theorem ashBig_left (a : Int) (k : Nat) :
    ashBig a (k : Int) = makeLongInt (a * 2 ^ k) := by
  unfold ashBig
  by_cases h : (k : Int) > 0
  · rw [if_pos h, maybeDemote_big]; simp
  · have : k = 0 := by omega
    subst this
    simp [maybeDemote_big]

/-! ### gcd -/

theorem gcdLoop_eq (m n : Nat) : gcdLoop m n = Nat.gcd m n := by
  fun_induction gcdLoop m n with
  | case1 n => simp
  | case2 m n h ih => rw [ih, ← Nat.gcd_rec]

end Rep.Number
