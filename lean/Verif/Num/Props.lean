/-
Properties C01-C07 (exact arithmetic) and C41 (exponentiation).

`WF n` says that the object `n` can exist (a fixnum holds 62 bits; a rational
object is not integral), `value n` is the number it denotes and
`IsExactly r q` that the call returned the number `q`, as a canonical object.
`plus`, `minus`, ... are the Lisp functions `+`, `-`, ... on an argument list.
-/
import Verif.Num.Lemmas2

namespace Rep.Number

/-! ## C01  exact addition and subtraction -/

/-- `(+ n ...)` is the exact sum, for any number of arguments in any mixture of
representations, and canonical as soon as something is added. -/
theorem C01_plus_exact (l : List Num) (hl : ∀ n ∈ l, WF n) :
    ∃ v, plus (l.map .num) = .ok v ∧ WF v ∧ value v = (l.map value).sum ∧
      (2 ≤ l.length → Canonical v) := by
  cases l with
  | nil => exact ⟨.fix 0, by decide, by simp [WF], by simp [value], by simp⟩
  | cons n rest =>
    obtain ⟨v, h1, h2, h3, h4⟩ := foldArgs_exact (f := (· + ·)) (fun _ _ => add_exact) rest n 2
      (hl n (by simp)) (fun m hm => hl m (by simp [hm]))
    refine ⟨v, ?_, h2, ?_, ?_⟩
    · simpa [plus, foldv, anyNum] using h1
    · rw [h3, foldl_add_sum]; simp
    · intro h; apply h4; rintro rfl; simp at h

/-- `(- n m ...)` is the exact difference. -/
theorem C01_minus_exact (n m : Num) (l : List Num) (hn : WF n) (hm : WF m) (hl : ∀ k ∈ l, WF k) :
    IsExactly (minus ((n :: m :: l).map .num)) (value n - (value m + (l.map value).sum)) := by
  obtain ⟨v, h1, h2, h3, h4⟩ := foldArgs_exact (f := (· - ·)) (fun _ _ => sub_exact) (m :: l) n 2
    hn (by simpa using ⟨hm, hl⟩)
  refine ⟨v, ?_, ?_, h4 (by simp)⟩
  · simpa [minus, foldv, anyNum] using h1
  · rw [h3, foldl_sub_sum]; simp

/-- `(- n)` is the exact negation. -/
theorem C01_negate_exact (n : Num) (hn : WF n) :
    ∃ v, minus [.num n] = .ok v ∧ WF v ∧ value v = - value n := by
  cases n with
  | fix a =>
    have hn : -(2 ^ 61) ≤ a ∧ a < 2 ^ 61 := hn
    refine ⟨makeLongInt (-a), ?_, (makeLongInt_canonical _).wf, ?_⟩
    · simp only [minus, neg]; rw [clong_range (by omega)]; rfl
    · rw [makeLongInt_value]; simp [value]
  | big a => exact ⟨_, rfl, trivial, by simp [value]⟩
  | rat q => exact ⟨_, rfl, by simpa [WF] using hn, rfl⟩

/-- `1+` and `1-`. -/
theorem C01_plus1_sub1_exact (n : Num) (hn : WF n) :
    IsExactly (plus1 n) (value n + 1) ∧ IsExactly (sub1 n) (value n - 1) := by
  cases n with
  | fix a =>
    have hn : -(2 ^ 61) ≤ a ∧ a < 2 ^ 61 := hn
    simp only [plus1, sub1]
    rw [clong_range (by omega), clong_range (by omega)]
    constructor
    · have := isExactly_long (a + 1); push_cast at this; exact this
    · have := isExactly_long (a - 1); push_cast at this; exact this
  | big a =>
    simp only [plus1, sub1, maybeDemote_big]
    constructor
    · have := isExactly_long (a + 1); push_cast at this; exact this
    · have := isExactly_long (a - 1); push_cast at this; exact this
  | rat a => exact ⟨isExactly_rat _, isExactly_rat _⟩

/-- Concrete instance: the largest fixnum plus one plus a bignum minus itself. -/
example : (∀ n ∈ [Num.fix (2 ^ 61 - 1), .fix 1, .big (2 ^ 70), .big (-(2 ^ 70))], WF n) ∧
    plus ([Num.fix (2 ^ 61 - 1), .fix 1, .big (2 ^ 70), .big (-(2 ^ 70))].map .num) = .ok (.big (2 ^ 61)) := by
  constructor
  · simp [WF]
  · decide

/-! ## C02  multiplication -/

/-- The full statement of C02. -/
def C02_statement : Prop :=
  ∀ x y, WF x → WF y → IsExactly (mul x y) (value x * value y)

/-- The product of two fixnums may overflow the 64-bit intermediate: undefined
behaviour in C. -/
theorem C02_mul_violated : ¬ C02_statement := by
  intro h
  obtain ⟨v, hv, _⟩ := h (.fix (2 ^ 40)) (.fix (2 ^ 40)) (by simp [WF]) (by simp [WF])
  revert hv
  have : mul (.fix (2 ^ 40)) (.fix (2 ^ 40)) = .ub := by decide
  rw [this]; simp

/-- Missing from C02: pairs of fixnums whose product does not fit 64 bits. -/
theorem C02_mul_exact_partial (x y : Num) (hx : WF x) (hy : WF y)
    (hg : ∀ a b, x = .fix a → y = .fix b → -(2 ^ 63) ≤ a * b ∧ a * b < 2 ^ 63) :
    IsExactly (mul x y) (value x * value y) := by
  rcases mul_exact_or_ub (x := x) (y := y) with ⟨a, b, rfl, rfl, h, _⟩ | h
  · exact absurd (hg a b rfl rfl) h
  · exact h

/-- The guard of `C02_mul_exact_partial` is exact: outside it the call is undefined. -/
theorem C02_mul_guard_exact (a b : Int) (h : ¬ (-(2 ^ 63) ≤ a * b ∧ a * b < 2 ^ 63)) :
    mul (.fix a) (.fix b) = .ub := by
  simp only [mul, promoteDup, typeCode, gt_iff_lt, lt_irrefl, if_false, clong, if_neg h, Res.bind]

/-- A product that crosses from fixnums to a bignum. -/
example : mul (.fix (2 ^ 31)) (.fix (2 ^ 31)) = .ok (.big (2 ^ 62)) ∧
    mul (.big (2 ^ 100)) (.fix (-1)) = .ok (.big (-(2 ^ 100))) := by decide

/-! ## C03  division -/

/-- The full statement of C03 for `quotient`/`remainder`. -/
def C03_quotient_statement : Prop :=
  ∀ x y, WF x → WF y → integerp x = true → integerp y = true → intValue y ≠ 0 →
    ∃ q r, quotient x y = .ok q ∧ remainder x y = .ok r ∧
      integerp q = true ∧ integerp r = true ∧
      intValue x = intValue y * intValue q + intValue r ∧
      (intValue r).natAbs < (intValue y).natAbs ∧
      (intValue r = 0 ∨ (0 < intValue r ↔ 0 < intValue x))

/-- `(quotient MIN -1)` is MIN for the most negative fixnum. -/
theorem C03_quotient_violated : ¬ C03_quotient_statement := by
  intro h
  obtain ⟨q, r, h1, h2, _, _, h3, _⟩ := h (.fix (-(2 ^ 61))) (.fix (-1)) (by simp [WF]) (by simp [WF])
    rfl rfl (by decide)
  have e1 : quotient (.fix (-(2 ^ 61))) (.fix (-1)) = .ok (.fix (-(2 ^ 61))) := by decide
  have e2 : remainder (.fix (-(2 ^ 61))) (.fix (-1)) = .ok (.fix 0) := by decide
  rw [e1, Res.ok.injEq] at h1
  rw [e2, Res.ok.injEq] at h2
  subst h1 h2
  revert h3; decide

theorem IsInt.out {r : Res Num} {z : Int} (h : IsInt r z) :
    ∃ v, r = .ok v ∧ integerp v = true ∧ intValue v = z ∧ Canonical v := by
  obtain ⟨v, h1, h2, h3⟩ := h
  refine ⟨v, h1, ?_, ?_, h3⟩
  · rw [integerp_wf h3.wf]; exact ⟨z, h2⟩
  · cases v with
    | fix w => simpa [value, intValue] using h2
    | big w => simpa [value, intValue] using h2
    | rat q =>
      simp only [value] at h2
      simp only [intValue, h2, Rat.num_intCast]

/-- Missing from C03: the pair (most negative fixnum, -1) for `quotient`. -/
theorem C03_quotient_remainder_partial (x y : Num) (hx : WF x) (hxi : integerp x = true)
    (hyi : integerp y = true) (h0 : intValue y ≠ 0)
    (hg : ¬ (x = .fix (-(2 ^ 61)) ∧ y = .fix (-1))) :
    ∃ q r, quotient x y = .ok q ∧ remainder x y = .ok r ∧
      integerp q = true ∧ integerp r = true ∧
      intValue x = intValue y * intValue q + intValue r ∧
      (intValue r).natAbs < (intValue y).natAbs ∧
      (intValue r = 0 ∨ (0 < intValue r ↔ 0 < intValue x)) := by
  obtain ⟨q, hq, hqi, hqv, _⟩ := (quotient_int hx hxi hyi h0 hg).out
  obtain ⟨r, hr, hri, hrv, _⟩ := (remainder_int hx hxi hyi h0).out
  refine ⟨q, r, hq, hr, hqi, hri, ?_, ?_, ?_⟩
  · rw [hqv, hrv, Int.mul_tdiv_add_tmod]
  · rw [hrv, Int.natAbs_tmod]; exact Nat.mod_lt _ (by omega)
  · rw [hrv]
    have hs1 : 0 ≤ intValue x → 0 ≤ Int.tmod (intValue x) (intValue y) := fun h => Int.tmod_nonneg _ h
    have hs2 : intValue x ≤ 0 → Int.tmod (intValue x) (intValue y) ≤ 0 := by
      intro h
      have := Int.tmod_nonneg (intValue y) (a := -intValue x) (by omega)
      rw [Int.neg_tmod] at this
      omega
    by_cases h : intValue x = 0
    · left; rw [h]; simp
    · omega

/-- The remainder alone needs no guard: it is right for every pair of integers. -/
theorem C03_remainder (x y : Num) (hx : WF x) (hxi : integerp x = true)
    (hyi : integerp y = true) (h0 : intValue y ≠ 0) :
    ∃ r, remainder x y = .ok r ∧ integerp r = true ∧ intValue y ∣ intValue x - intValue r ∧
      (intValue r).natAbs < (intValue y).natAbs ∧
      (intValue r = 0 ∨ (0 < intValue r ↔ 0 < intValue x)) := by
  obtain ⟨r, hr, hri, hrv, _⟩ := (remainder_int hx hxi hyi h0).out
  refine ⟨r, hr, hri, ?_, ?_, ?_⟩
  · rw [hrv]
    have := Int.mul_tdiv_add_tmod (intValue x) (intValue y)
    exact ⟨Int.tdiv (intValue x) (intValue y), by omega⟩
  · rw [hrv, Int.natAbs_tmod]; exact Nat.mod_lt _ (by omega)
  · rw [hrv]
    have hs1 : 0 ≤ intValue x → 0 ≤ Int.tmod (intValue x) (intValue y) := fun h => Int.tmod_nonneg _ h
    have hs2 : intValue x ≤ 0 → Int.tmod (intValue x) (intValue y) ≤ 0 := by
      intro h
      have := Int.tmod_nonneg (intValue y) (a := -intValue x) (by omega)
      rw [Int.neg_tmod] at this
      omega
    by_cases h : intValue x = 0
    · left; rw [h]; simp
    · omega

/-- The full statement of C03 for `mod`. -/
def C03_mod_statement : Prop :=
  ∀ x y, WF x → WF y → integerp x = true → integerp y = true → intValue y ≠ 0 →
    ∃ r, mod x y = .ok r ∧ integerp r = true ∧ intValue y ∣ intValue x - intValue r ∧
      (0 < intValue y → 0 ≤ intValue r ∧ intValue r < intValue y) ∧
      (intValue y < 0 → intValue y < intValue r ∧ intValue r ≤ 0)

/-- `(mod -(2^70) 3)` is -1: with a bignum dividend and a fixnum divisor the
remainder overwrites the divisor before its sign is inspected. -/
theorem C03_mod_violated : ¬ C03_mod_statement := by
  intro h
  obtain ⟨r, h1, _, _, h2, _⟩ := h (.big (-(2 ^ 70))) (.fix 3) trivial (by simp [WF]) rfl rfl (by decide)
  have e : mod (.big (-(2 ^ 70))) (.fix 3) = .ok (.fix (-1)) := by decide
  rw [e, Res.ok.injEq] at h1
  subst h1
  have := h2 (by decide)
  simp [intValue] at this

/-- Missing from C03: a bignum dividend with a fixnum divisor. -/
theorem C03_mod_partial (x y : Num) (hy : WF y) (hxi : integerp x = true)
    (hyi : integerp y = true) (h0 : intValue y ≠ 0) (hg : ¬ ∃ a b, x = .big a ∧ y = .fix b) :
    ∃ r, mod x y = .ok r ∧ integerp r = true ∧ intValue y ∣ intValue x - intValue r ∧
      (0 < intValue y → 0 ≤ intValue r ∧ intValue r < intValue y) ∧
      (intValue y < 0 → intValue y < intValue r ∧ intValue r ≤ 0) := by
  obtain ⟨r, hr, hri, hrv, _⟩ := (mod_int hy hxi hyi h0 hg).out
  have hb := fmod_bounds (intValue x) h0
  refine ⟨r, hr, hri, ?_, ?_, ?_⟩
  · rw [hrv]
    have := Int.mul_fdiv_add_fmod (intValue x) (intValue y)
    exact ⟨Int.fdiv (intValue x) (intValue y), by omega⟩
  · rw [hrv]; exact hb.1
  · rw [hrv]; exact hb.2

/-- For a bignum dividend and a fixnum divisor `mod` still returns a number
congruent to the dividend and smaller than the divisor, but with the sign of the
dividend. -/
theorem C03_mod_big_fix_partial (a b : Int) (h0 : b ≠ 0) :
    ∃ r, mod (.big a) (.fix b) = .ok r ∧ integerp r = true ∧ b ∣ a - intValue r ∧
      (intValue r).natAbs < b.natAbs := by
  refine ⟨_, mod_big_fix a b h0, ?_, ?_, ?_⟩
  · rw [integerp_wf (makeLongInt_canonical _).wf]; exact ⟨_, makeLongInt_value _⟩
  · rw [makeLongInt_intValue]
    have := Int.mul_tdiv_add_tmod a b
    exact ⟨Int.tdiv a b, by omega⟩
  · rw [makeLongInt_intValue, Int.natAbs_tmod]; exact Nat.mod_lt _ (by omega)

/-- A zero divisor signals arith-error in each of the three functions and in the
two-argument `/`, for every integer dividend. -/
theorem C03_zero_divisor (x y : Num) (hxi : integerp x = true) (hyi : integerp y = true)
    (h0 : intValue y = 0) :
    quotient x y = .arithError ∧ remainder x y = .arithError ∧ mod x y = .arithError ∧
      divide [.num x, .num y] = .arithError := by
  have hz : zerop y = true := by cases y <;> simp_all [zerop, intValue, integerp]
  refine ⟨?_, ?_, ?_, ?_⟩
  · simp [quotient, hz, hxi, hyi]
  · simp [remainder, hz]
  · simp [mod, hz]
  · simp [divide, foldv, foldArgs, anyNum, div, hz]

/-- `/` with more than two arguments passes the NULL result of the failed
division on to the next one, which dereferences it. -/
theorem C03_divide_by_zero_violated :
    divide [.num (.fix 1), .num (.fix 0), .num (.fix 2)] = .ub := by decide

/-- `(/ x y)` is the exact quotient, a rational if need be.  Missing: the pair
(most negative fixnum, -1). -/
theorem C03_divide_exact_partial (x y : Num) (hx : WF x) (hy : WF y) (h0 : value y ≠ 0)
    (hg : ¬ (x = .fix (-(2 ^ 61)) ∧ y = .fix (-1))) :
    IsExactly (divide [.num x, .num y]) (value x / value y) := by
  obtain ⟨v, hv, h⟩ := div_exact hx hy h0 hg
  exact ⟨v, by simp [divide, foldv, foldArgs, anyNum, hv], h⟩

example : quotient (.fix (-7)) (.fix 2) = .ok (.fix (-3)) ∧ remainder (.fix (-7)) (.fix 2) = .ok (.fix (-1)) ∧
    mod (.fix (-7)) (.fix 2) = .ok (.fix 1) ∧ mod (.big (2 ^ 70)) (.big (-(2 ^ 69) - 1)) = .ok (.fix (-2)) ∧
    mod (.fix 7) (.big (-(2 ^ 69))) = .ok (.big (7 - 2 ^ 69)) := by decide

/-! ## C04  order -/

/-- The full statement of C04 for two arguments. -/
def C04_statement : Prop :=
  ∀ x y, WF x → WF y →
    numEq [x, y] = .ok (decide (value x = value y)) ∧
    ltThan [x, y] = .ok (decide (value x < value y)) ∧
    gtThan [x, y] = .ok (decide (value y < value x)) ∧
    leThan [x, y] = .ok (decide (value x ≤ value y)) ∧
    geThan [x, y] = .ok (decide (value y ≤ value x))

/-- `(= 0 4294967296)` is true and `(< 0 2147483648)` is false: the 62-bit
difference of two fixnums is truncated to a 32-bit `int`. -/
theorem C04_order_violated :
    numEq [.fix 0, .fix (2 ^ 32)] = .ok true ∧ ltThan [.fix 0, .fix (2 ^ 31)] = .ok true ∧
    ltThan [.fix (2 ^ 31), .fix 0] = .ok true ∧ eql (.fix 0) (.fix (2 ^ 32)) = true ∧
    max2 (.fix 0) (.fix (2 ^ 32)) = .fix 0 ∧ ¬ C04_statement := by
  refine ⟨by decide, by decide, by decide, by decide, by decide, ?_⟩
  intro h
  have := (h (.fix 0) (.fix (2 ^ 32)) (by simp [WF]) (by simp [WF])).1
  rw [show numEq [.fix 0, .fix (2 ^ 32)] = .ok true by decide] at this
  simp [value] at this

/-- The comparison functions on an argument list of any length: adjacent pairs
are related as the numbers are.  Missing from C04: adjacent fixnums whose
difference does not fit an `int` (`Comparable`). -/
theorem C04_order_partial (l : List Num) (h2 : 2 ≤ l.length) (hc : l.IsChain Comparable) :
    numEq l = .ok (decide ((l.map value).IsChain (· = ·))) ∧
    ltThan l = .ok (decide ((l.map value).IsChain (· < ·))) ∧
    gtThan l = .ok (decide ((l.map value).IsChain (· > ·))) ∧
    leThan l = .ok (decide ((l.map value).IsChain (· ≤ ·))) ∧
    geThan l = .ok (decide ((l.map value).IsChain (· ≥ ·))) := by
  have key : ∀ (op : Int → Bool) (R : Rat → Rat → Prop) [DecidableRel R],
      (∀ x y, Comparable x y → op (valueCmp x y) = decide (R (value x) (value y))) →
      comparison op l = .ok (decide ((l.map value).IsChain R)) := by
    intro op R _ hop
    have go : ∀ l : List Num, l.IsChain Comparable →
        comparison.go op l = decide ((l.map value).IsChain R) := by
      intro l
      induction l with
      | nil => intro _; simp [comparison.go]
      | cons a rest ih =>
        intro hc
        cases rest with
        | nil => simp [comparison.go]
        | cons b rest =>
          rw [List.isChain_cons_cons] at hc
          have := ih hc.2
          simp only [comparison.go, hop a b hc.1, this, List.map_cons, List.isChain_cons_cons, Bool.decide_and]
    match l, h2, hc with
    | a :: b :: rest, _, hc => simp only [comparison]; rw [go _ hc]
  refine ⟨key _ _ ?_, key _ _ ?_, key _ _ ?_, key _ _ ?_, key _ _ ?_⟩ <;> intro x y hxy <;>
    obtain ⟨h1, h2⟩ := valueCmp_spec hxy
  · rw [Bool.eq_iff_iff]; simpa using h2
  · rw [Bool.eq_iff_iff]; simpa using h1
  · rw [Bool.eq_iff_iff]; simp only [decide_eq_true_eq]
    rw [gt_iff_lt, gt_iff_lt, ← not_le, ← not_le, le_iff_lt_or_eq, le_iff_lt_or_eq, h1, h2]
  · rw [Bool.eq_iff_iff]; simp only [decide_eq_true_eq]
    rw [le_iff_lt_or_eq, le_iff_lt_or_eq, h1, h2]
  · rw [Bool.eq_iff_iff]; simp only [decide_eq_true_eq]
    rw [ge_iff_le, ge_iff_le, ← not_lt, ← not_lt, h1]

/-- `max`, `min` and `eql` of two numbers, under the same guard. -/
theorem C04_max_min_partial (x y : Num) (hc : Comparable x y) :
    value (max2 x y) = max (value x) (value y) ∧ value (min2 x y) = min (value x) (value y) ∧
      eql x y = decide (value x = value y) := by
  obtain ⟨h1, h2⟩ := compare_spec hc
  refine ⟨?_, ?_, ?_⟩
  · unfold max2
    split
    · rename_i h
      rw [max_eq_left]; rw [← not_lt, ← h1]; omega
    · rename_i h
      rw [max_eq_right]; exact le_of_lt (h1.1 (by omega))
  · unfold min2
    split
    · rename_i h
      rw [min_eq_left]; rw [le_iff_lt_or_eq, ← h1, ← h2]; omega
    · rename_i h
      rw [min_eq_right]; rw [← not_lt, ← h1]; omega
  · unfold eql
    rw [Bool.eq_iff_iff]; simpa using h2

example : [Num.fix 1, .fix 2, .big (2 ^ 80)].IsChain Comparable ∧
    ltThan [.fix 1, .fix 2, .big (2 ^ 80)] = .ok true := by
  refine ⟨?_, by decide⟩
  refine .cons_cons ?_ (.cons_cons ?_ (.singleton _))
  · intro a b h1 h2; injection h1; injection h2; omega
  · intro a b h1 h2; simp at h2

/-! ## C05  canonical results -/

/-- Sums, differences, products, quotients, remainders, residues, `1+`, `1-`
return canonical objects whenever they return one (whatever the
representation of their arguments). -/
theorem C05_canonical_partial (x y : Num) (hx : WF x) (hy : WF y) :
    (∀ v, add x y = .ok v → Canonical v) ∧
    (∀ v, sub x y = .ok v → Canonical v) ∧
    (∀ v, mul x y = .ok v → Canonical v) ∧
    (∀ v, div x y = .ok v → Canonical v) ∧
    (∀ v, quotient x y = .ok v → Canonical v) ∧
    (∀ v, remainder x y = .ok v → Canonical v) ∧
    (∀ v, mod x y = .ok v → Canonical v) ∧
    (∀ v, plus1 x = .ok v → Canonical v) ∧
    (∀ v, sub1 x = .ok v → Canonical v) := by
  have ex : ∀ {r : Res Num} {q : Rat}, IsExactly r q → ∀ v, r = .ok v → Canonical v := by
    intro r q h v hv
    obtain ⟨w, hw, _, hc⟩ := h
    rw [hv, Res.ok.injEq] at hw; exact hw ▸ hc
  have exi : ∀ {r : Res Num} {q : Int}, IsInt r q → ∀ v, r = .ok v → Canonical v := fun h => ex h
  have hint : ∀ z, Canonical (makeInt z) := by
    intro z
    have h1 := Int.le_bmod (x := z) (m := 2 ^ 62) (by decide)
    have h2 := Int.bmod_lt (x := z) (m := 2 ^ 62) (by decide)
    simp only [makeInt, Canonical]
    constructor
    · have : ((2 ^ 62 : Nat) : Int) = 2 ^ 62 := by norm_cast
      omega
    · have : ((2 ^ 62 : Nat) : Int) = 2 ^ 62 := by norm_cast
      omega
  refine ⟨ex (add_exact hx hy), ex (sub_exact hx hy), ?_, ?_, ?_, ?_, ?_,
    ex (C01_plus1_sub1_exact x hx).1, ex (C01_plus1_sub1_exact x hx).2⟩
  · rcases mul_exact_or_ub (x := x) (y := y) with ⟨a, b, _, _, _, h⟩ | h
    · intro v hv; rw [h] at hv; simp at hv
    · exact ex h
  · intro v hv
    by_cases h0 : value y = 0
    · have hz : zerop y = true := by cases y <;> simp_all [zerop, value]
      simp [div, hz] at hv
    · by_cases hg : x = .fix (-(2 ^ 61)) ∧ y = .fix (-1)
      · obtain ⟨rfl, rfl⟩ := hg
        have e : div (.fix (-(2 ^ 61))) (.fix (-1)) = .ok (.fix (-(2 ^ 61))) := by decide
        rw [e, Res.ok.injEq] at hv; subst hv; simp [Canonical]
      · exact ex (div_exact hx hy h0 hg) v hv
  · intro v hv
    have hi : integerp x = true ∧ integerp y = true ∧ zerop y = false := by
      unfold quotient at hv
      revert hv
      cases integerp x <;> cases integerp y <;> cases zerop y <;> simp
    by_cases hg : x = .fix (-(2 ^ 61)) ∧ y = .fix (-1)
    · obtain ⟨rfl, rfl⟩ := hg
      have e : quotient (.fix (-(2 ^ 61))) (.fix (-1)) = .ok (.fix (-(2 ^ 61))) := by decide
      rw [e, Res.ok.injEq] at hv; subst hv; simp [Canonical]
    · refine exi (quotient_int hx hi.1 hi.2.1 ?_ hg) v hv
      obtain ⟨_, h2, h3⟩ := hi
      cases y <;> simp_all [zerop, intValue, integerp]
  · intro v hv
    have hi : integerp x = true ∧ integerp y = true ∧ zerop y = false := by
      unfold remainder at hv
      revert hv
      cases x <;> cases y <;> simp only [integerp, promoteDup, typeCode, promoteTo] <;>
        (split <;> simp_all)
    refine exi (remainder_int hx hi.1 hi.2.1 ?_) v hv
    obtain ⟨_, h2, h3⟩ := hi
    cases y <;> simp_all [zerop, intValue, integerp]
  · intro v hv
    unfold mod at hv
    split at hv
    · simp at hv
    · split at hv
      · simp only [Res.ok.injEq] at hv; exact hv ▸ hint _
      · simp only [Res.ok.injEq, maybeDemote_big] at hv; exact hv ▸ makeLongInt_canonical _
      · simp at hv

/-- Missing from C05 (and false): negation, the logical operations, `gcd` and
`expt` do not demote. -/
theorem C05_canonical_violated :
    (∃ x v, Canonical x ∧ neg x = .ok v ∧ ¬ Canonical v) ∧
    (∃ x y v, Canonical x ∧ Canonical y ∧ logand x y = .ok v ∧ ¬ Canonical v) ∧
    (∃ x y v, Canonical x ∧ Canonical y ∧ logior x y = .ok v ∧ ¬ Canonical v) ∧
    (∃ x y v, Canonical x ∧ Canonical y ∧ logxor x y = .ok v ∧ ¬ Canonical v) ∧
    (∃ x y v, Canonical x ∧ Canonical y ∧ gcd x y = .ok v ∧ ¬ Canonical v) ∧
    (∃ x y v, Canonical x ∧ Canonical y ∧ expt x y = .ok v ∧ ¬ Canonical v) := by
  refine ⟨⟨.big (2 ^ 61), .big (-(2 ^ 61)), ?_⟩,
    ⟨.big (2 ^ 80 + 5), .fix 7, .big 5, ?_⟩,
    ⟨.big (2 ^ 80), .fix (-1), .big (-1), ?_⟩,
    ⟨.big (2 ^ 80), .big (2 ^ 80 + 1), .big 1, ?_⟩,
    ⟨.big (2 ^ 80), .fix 6, .big 2, ?_⟩,
    ⟨.fix 2, .fix 3, .big 8, ?_⟩⟩
  · refine ⟨by simp [Canonical], by decide, by simp [Canonical]⟩
  all_goals refine ⟨by simp [Canonical], by simp [Canonical], by decide +kernel, by simp [Canonical]⟩

/-! ## C06  bits and shifts -/

/-- `(logand n ...)` on any non-empty list of integers: bit `i` of the two's
complement result is the conjunction of the bits `i`. -/
theorem C06_logand (n : Num) (l : List Num) (hn : WF n ∧ integerp n = true)
    (hl : ∀ m ∈ l, WF m ∧ integerp m = true) :
    ∃ v, logandV ((n :: l).map .num) = .ok v ∧ WF v ∧ integerp v = true ∧
      ∀ i, (intValue v).testBit i = ((n :: l).map intValue).all (·.testBit i) := by
  obtain ⟨v, h1, h2, h3, h4⟩ := foldArgs_int (ok? := anyNum) (f := Int.land) (fun _ _ => rfl)
    (fun _ _ => logand_int) l n 2 hn.1 hn.2 hl
  refine ⟨v, by simpa [logandV, foldv, anyNum] using h1, h2, h3, fun i => ?_⟩
  rw [h4]
  have : ∀ (l : List Int) (s : Int), (l.foldl Int.land s).testBit i = (s.testBit i && l.all (·.testBit i)) := by
    intro l
    induction l with
    | nil => simp
    | cons a l ih => intro s; simp [ih, Int.testBit_land, Bool.and_assoc]
  rw [this]; rfl

/-- `(logior n ...)`: the disjunction of the bits. -/
theorem C06_logior (n : Num) (l : List Num) (hn : WF n ∧ integerp n = true)
    (hl : ∀ m ∈ l, WF m ∧ integerp m = true) :
    ∃ v, logiorV ((n :: l).map .num) = .ok v ∧ WF v ∧ integerp v = true ∧
      ∀ i, (intValue v).testBit i = ((n :: l).map intValue).any (·.testBit i) := by
  obtain ⟨v, h1, h2, h3, h4⟩ := foldArgs_int (ok? := anyNum) (f := Int.lor) (fun _ _ => rfl)
    (fun _ _ => logior_int) l n 2 hn.1 hn.2 hl
  refine ⟨v, by simpa [logiorV, foldv, anyNum] using h1, h2, h3, fun i => ?_⟩
  rw [h4]
  have : ∀ (l : List Int) (s : Int), (l.foldl Int.lor s).testBit i = (s.testBit i || l.any (·.testBit i)) := by
    intro l
    induction l with
    | nil => simp
    | cons a l ih => intro s; simp [ih, Int.testBit_lor, Bool.or_assoc]
  rw [this]; rfl

/-- `(logxor n ...)`: bit `i` is set iff it is set in an odd number of arguments. -/
theorem C06_logxor (n : Num) (l : List Num) (hn : WF n ∧ integerp n = true)
    (hl : ∀ m ∈ l, WF m ∧ integerp m = true) :
    ∃ v, logxorV ((n :: l).map .num) = .ok v ∧ WF v ∧ integerp v = true ∧
      ∀ i, (intValue v).testBit i = decide (((n :: l).map intValue).countP (·.testBit i) % 2 = 1) := by
  obtain ⟨v, h1, h2, h3, h4⟩ := foldArgs_int (ok? := anyNum) (f := Int.xor) (fun _ _ => rfl)
    (fun _ _ => logxor_int) l n 2 hn.1 hn.2 hl
  refine ⟨v, by simpa [logxorV, foldv, anyNum] using h1, h2, h3, fun i => ?_⟩
  rw [h4]
  have : ∀ (l : List Int) (s : Int), (l.foldl Int.xor s).testBit i =
      decide (((s :: l).countP (·.testBit i)) % 2 = 1) := by
    intro l
    induction l with
    | nil => intro s; cases h : s.testBit i <;> simp [h]
    | cons a l ih =>
      intro s
      rw [List.foldl_cons, ih]
      simp only [List.countP_cons, Int.testBit_lxor]
      cases s.testBit i <;> cases a.testBit i <;> simp <;> omega
  rw [this]; rfl

/-- `(lognot n)`: every bit is inverted. -/
theorem C06_lognot (n : Num) (hn : WF n) (hi : integerp n = true) :
    ∃ v, lognot n = .ok v ∧ WF v ∧ integerp v = true ∧
      ∀ i, (intValue v).testBit i = !(intValue n).testBit i := by
  obtain ⟨v, h1, h2, h3, h4⟩ := lognot_int hn hi
  exact ⟨v, h1, h2, h3, fun i => by rw [h4, Int.testBit_lnot]⟩

/-- Bits determine the integer, so the theorems above determine the results. -/
theorem C06_bits_determine (a b : Int) (h : ∀ i, a.testBit i = b.testBit i) : a = b :=
  int_testBit_inj h

theorem ash_fix (a c : Int) : ash (.fix a) (.fix c) =
    if c ≥ 62 then .ok (ashBig a c)
    else if c > 0 then (clong (a * 2 ^ c.toNat)).bind fun t => .ok (makeLonglongInt t)
    else if -c ≥ 64 then .ub
    else .ok (makeLonglongInt (Int.fdiv a (2 ^ (-c).toNat))) := rfl

/-- A left shift by a fixnum count is multiplication by `2^k`.  Missing from C06:
fixnums shifted by 1 to 61 places out of the 64-bit word. -/
theorem C06_ash_left_partial (x : Num) (k : Nat) (hxi : integerp x = true)
    (hg : ∀ a, x = .fix a → k < 62 → -(2 ^ 63) ≤ a * 2 ^ k ∧ a * 2 ^ k < 2 ^ 63) :
    IsExactly (ash x (.fix k)) (((intValue x * 2 ^ k : Int)) : Rat) := by
  cases x with
  | fix a =>
    simp only [ash_fix, intValue]
    split
    · rw [ashBig_left]; exact isExactly_long _
    · rename_i hk
      split
      · have := hg a rfl (by omega)
        rw [Int.toNat_natCast, clong_range this]; exact isExactly_long _
      · have : k = 0 := by omega
        subst this
        simp only [Nat.cast_zero, neg_zero, Int.toNat_zero, pow_zero, Int.fdiv_one, mul_one]
        exact isExactly_long _
  | big a =>
    simp only [ash, integerp, coerceInt, Bool.not_true, Bool.false_eq_true, if_false, intValue]
    rw [ashBig_left]; exact isExactly_long _
  | rat q => simp [integerp] at hxi

/-- A right shift by `k` places is division by `2^k` rounded down.  Missing from
C06: fixnums shifted right by 64 places or more (undefined in C). -/
theorem C06_ash_right_partial (x : Num) (k : Nat) (hxi : integerp x = true)
    (hg : ∀ a, x = .fix a → k < 64) :
    ∃ z : Int, IsExactly (ash x (.fix (-k))) z ∧ z * 2 ^ k ≤ intValue x ∧ intValue x < (z + 1) * 2 ^ k := by
  have hp : (0 : Int) < 2 ^ k := by positivity
  refine ⟨Int.fdiv (intValue x) (2 ^ k), ?_, ?_, ?_⟩
  · cases x with
    | fix a =>
      have := hg a rfl
      simp only [ash_fix, intValue]
      rw [if_neg (by omega), if_neg (by omega), if_neg (by omega)]
      simp only [neg_neg, Int.toNat_natCast]
      exact isExactly_long _
    | big a =>
      simp only [ash, integerp, coerceInt, Bool.not_true, Bool.false_eq_true, if_false, intValue]
      rw [ashBig_right]; exact isExactly_long _
    | rat q => simp [integerp] at hxi
  · have h1 := Int.mul_fdiv_add_fmod (intValue x) (2 ^ k)
    have h2 := Int.fmod_nonneg_of_pos (intValue x) hp
    rw [Int.mul_comm]; omega
  · have h1 := Int.mul_fdiv_add_fmod (intValue x) (2 ^ k)
    have h2 := Int.fmod_lt_of_pos (intValue x) hp
    rw [Int.add_mul, Int.mul_comm]; omega

/-- The guards are needed: these calls are undefined in C although they have a
mathematical value. -/
theorem C06_ash_violated : ash (.fix 8) (.fix 61) = .ub ∧ ash (.fix 1) (.fix (-64)) = .ub := by decide

example : ash (.fix 5) (.fix 70) = .ok (.big (5 * 2 ^ 70)) ∧ ash (.fix (-5)) (.fix (-1)) = .ok (.fix (-3)) ∧
    ash (.big (2 ^ 70)) (.fix (-68)) = .ok (.fix 4) ∧ logandV [.num (.fix (-2)), .num (.big (2 ^ 70 + 7))]
      = .ok (.big (2 ^ 70 + 6)) := by decide +kernel

/-! ## C07  gcd -/

/-- The full statement of C07. -/
def C07_statement : Prop :=
  ∀ x y, WF x → WF y → integerp x = true → integerp y = true →
    ∃ v, gcdV [.num x, .num y] = .ok v ∧ integerp v = true ∧ 0 ≤ intValue v ∧
      intValue v ∣ intValue x ∧ intValue v ∣ intValue y ∧
      ∀ d : Int, d ∣ intValue x → d ∣ intValue y → d ∣ intValue v

/-- `(gcd MIN MIN)` is negative for the most negative fixnum. -/
theorem C07_gcd_violated : ¬ C07_statement := by
  intro h
  obtain ⟨v, h1, _, h2, _⟩ := h (.fix (-(2 ^ 61))) (.fix (-(2 ^ 61))) (by simp [WF]) (by simp [WF]) rfl rfl
  have e : gcdV [.num (.fix (-(2 ^ 61))), .num (.fix (-(2 ^ 61)))] = .ok (.fix (-(2 ^ 61))) := by
    simp only [gcdV, foldv, foldArgs, integerp, if_true, gcd, promoteDup, typeCode, gt_iff_lt, lt_irrefl,
      if_false, gcdLoop_eq]
    decide
  rw [e, Res.ok.injEq] at h1
  subst h1
  revert h2; decide

/-- Missing from C07: both arguments in {0, most negative fixnum}, not both 0
(the gcd 2^61 is not a fixnum). -/
theorem C07_gcd_partial (x y : Num) (hx : WF x) (hy : WF y) (hxi : integerp x = true)
    (hyi : integerp y = true)
    (hg : ∀ a b, x = .fix a → y = .fix b → Int.gcd a b ≠ 2 ^ 61) :
    ∃ v, gcdV [.num x, .num y] = .ok v ∧ integerp v = true ∧ 0 ≤ intValue v ∧
      intValue v ∣ intValue x ∧ intValue v ∣ intValue y ∧
      ∀ d : Int, d ∣ intValue x → d ∣ intValue y → d ∣ intValue v := by
  have main : ∃ v, gcdV [.num x, .num y] = .ok v ∧ integerp v = true ∧
      intValue v = Int.gcd (intValue x) (intValue y) := by
    cases x <;> cases y <;> simp only [integerp, Bool.false_eq_true] at hxi hyi
    · rename_i a b
      simp only [gcdV, foldv, foldArgs, integerp, if_true, gcd, promoteDup, typeCode, gt_iff_lt, lt_irrefl,
        if_false, gcdLoop_eq]
      have hb : Nat.gcd a.natAbs b.natAbs ≤ 2 ^ 61 := by
        by_cases h : a.natAbs = 0
        · rw [h, Nat.gcd_zero_left]
          simp only [WF] at hy; omega
        · have := Nat.gcd_le_left b.natAbs (Nat.pos_of_ne_zero h)
          simp only [WF] at hx; omega
      have hne : Nat.gcd a.natAbs b.natAbs ≠ 2 ^ 61 := hg a b rfl rfl
      rw [makeInt_range (by omega)]
      exact ⟨_, rfl, rfl, rfl⟩
    · exact ⟨_, rfl, rfl, rfl⟩
    · exact ⟨_, rfl, rfl, rfl⟩
    · exact ⟨_, rfl, rfl, rfl⟩
  obtain ⟨v, h1, h2, h3⟩ := main
  refine ⟨v, h1, h2, by omega, ?_, ?_, ?_⟩
  · rw [h3]; exact Int.gcd_dvd_left ..
  · rw [h3]; exact Int.gcd_dvd_right ..
  · intro d hd1 hd2; rw [h3]; exact Int.dvd_coe_gcd hd1 hd2

/-- The hypotheses hold for a pair of mixed representation. -/
example : ∃ v, gcdV [.num (.fix (-12)), .num (.big (2 ^ 70))] = .ok v ∧ intValue v = 4 := ⟨.big 4, by decide +kernel, rfl⟩

/-! ## C41  exponentiation -/

/-- `(expt b n)` for an integer base and a non-negative fixnum exponent. -/
theorem C41_expt_nonneg (x : Num) (n : Nat) (hxi : integerp x = true) :
    ∃ v, expt x (.fix n) = .ok v ∧ integerp v = true ∧ intValue v = intValue x ^ n := by
  cases x <;> simp only [integerp, Bool.false_eq_true] at hxi <;>
    refine ⟨_, by simp only [expt]; rw [if_neg (by omega)], rfl, ?_⟩ <;>
    simp [intValue]

/-- `(expt b -n)` is the exact reciprocal, or arith-error for base zero. -/
theorem C41_expt_neg (x : Num) (n : Nat) (hxi : integerp x = true) (hn : 0 < n) :
    (intValue x ≠ 0 → IsExactly (expt x (.fix (-n))) (1 / (intValue x : Rat) ^ n)) ∧
    (intValue x = 0 → expt x (.fix (-n)) = .arithError) := by
  have e : expt x (.fix (-n)) = div (.fix 1) (.big (intValue x ^ n)) := by
    cases x <;> simp only [integerp, Bool.false_eq_true] at hxi <;>
      simp only [expt, intValue] <;> rw [if_pos (by omega)] <;> simp
  rw [e]
  constructor
  · intro h0
    have := div_exact (x := .fix 1) (y := .big (intValue x ^ n)) (by simp [WF]) trivial
      (by simp [value, h0]) (by simp)
    simpa [value] using this
  · intro h0
    rw [h0, zero_pow (by omega)]
    simp [div, zerop]

example : expt (.fix 3) (.fix 50) = .ok (.big (3 ^ 50)) ∧ expt (.fix 0) (.fix (-1)) = .arithError := by decide

end Rep.Number
