/-
Property C08: the text of exact numbers.
-/
import Verif.NumText.Model
import Verif.Num.Lemmas
import Verif.Num.Spec
import Mathlib.Tactic.Ring
import Mathlib.Tactic.Linarith
import Mathlib.Tactic.IntervalCases

namespace Rep.NumText

open Rep.Number

/-! ### Specification -/

/-- The value of a digit: `0` to `9`, then the letters of either case. -/
def digitValue (c : Char) : Option Nat :=
  if '0' ≤ c ∧ c ≤ '9' then some (c.toNat - '0'.toNat)
  else if 'a' ≤ c ∧ c ≤ 'z' then some (c.toNat - 'a'.toNat + 10)
  else if 'A' ≤ c ∧ c ≤ 'Z' then some (c.toNat - 'A'.toNat + 10)
  else none

/-- A digit in base r. -/
def IsDigit (r : Nat) (c : Char) : Prop := ∃ d, digitValue c = some d ∧ d < r

/-- The number that a sequence of digits stands for. -/
def textValue (r : Nat) (s : List Char) : Nat := s.foldl (fun v c => v * r + (digitValue c).getD 0) 0

/-- The exact integer, as a fixnum if it fits. -/
def ofInt (z : Int) : Num := if minInt ≤ z ∧ z ≤ maxInt then .fix z else .big z

/-! ### Digits -/

theorem toNat_le {a b : Char} : a ≤ b ↔ a.toNat ≤ b.toNat := Iff.rfl

theorem digitValue_eq (c : Char) : digitValue c = gmpDigit c := by
  unfold digitValue gmpDigit
  simp only [toNat_le]
  show (if 48 ≤ c.toNat ∧ c.toNat ≤ 57 then some (c.toNat - 48) else if 97 ≤ c.toNat ∧ c.toNat ≤ 122 then some (c.toNat - 97 + 10)
    else if 65 ≤ c.toNat ∧ c.toNat ≤ 90 then some (c.toNat - 65 + 10) else none) = _
  split
  · rfl
  · split
    · first | (rw [if_neg (by omega)]; congr 1; omega) | (congr 1; omega)
    · split
      · congr 1; omega
      · rfl

theorem takeWhile_all {p : Char → Bool} {s : List Char} (h : ∀ x ∈ s, p x = true) : s.takeWhile p = s := by
  induction s with
  | nil => rfl
  | cons a s ih => simp [h a (by simp), ih fun x hx => h x (by simp [hx])]

theorem map_spec : ∀ n, n < 128 → (if toupper n < 48 ∨ toupper n - 48 ≥ 0x2c then none else (map[toupper n - 48]?).getD none) =
    if n = 91 then some 36 else if n = 123 then none else (if 48 ≤ n ∧ n ≤ 57 then some (n - 48) else if 65 ≤ n ∧ n ≤ 90 then some (n - 55)
      else if 97 ≤ n ∧ n ≤ 122 then some (n - 87) else none) := by decide

theorem cDigit_eq (r : Nat) (hr : r ≤ 36) (c : Char) : cDigit r c = (gmpDigit c).bind fun d => if d < r then some d else none := by
  unfold cDigit
  split
  · rename_i h
    subst h
    unfold gmpDigit
    by_cases h : c.toNat < 48 ∨ c.toNat > 57
    · rw [if_pos h, if_neg (by omega)]
      split
      · simp only [Option.bind_some]; rw [if_neg (by omega)]
      · split
        · simp only [Option.bind_some]; rw [if_neg (by omega)]
        · rfl
    · rw [if_neg h, if_pos (by omega)]
      simp only [Option.bind_some]; rw [if_pos (by omega)]
  · by_cases h : c.toNat < 128
    · have := map_spec c.toNat h
      by_cases h2 : toupper c.toNat < 48 ∨ toupper c.toNat - 48 ≥ 0x2c
      · rw [if_pos h2] at this
        rw [if_pos (Or.inr h2)]
        unfold gmpDigit
        by_cases h91 : c.toNat = 91
        · rw [if_pos h91] at this; simp at this
        · rw [if_neg h91] at this
          by_cases h123 : c.toNat = 123
          · rw [if_neg (by omega), if_neg (by omega), if_neg (by omega)]; rfl
          · rw [if_neg h123] at this
            rw [← this]; rfl
      · rw [if_neg h2] at this
        rw [if_neg (by omega), this]
        unfold gmpDigit
        by_cases h91 : c.toNat = 91
        · rw [if_pos h91, if_neg (by omega), if_neg (by omega), if_neg (by omega)]
          dsimp only
          rw [if_pos (by omega)]; rfl
        · rw [if_neg h91]
          by_cases h123 : c.toNat = 123
          · rw [if_pos h123, if_neg (by omega), if_neg (by omega), if_neg (by omega)]; rfl
          · rw [if_neg h123]
            generalize (if 48 ≤ c.toNat ∧ c.toNat ≤ 57 then some (c.toNat - 48) else if 65 ≤ c.toNat ∧ c.toNat ≤ 90 then some (c.toNat - 55)
              else if 97 ≤ c.toNat ∧ c.toNat ≤ 122 then some (c.toNat - 87) else none) = o
            cases o with
            | none => rfl
            | some d =>
              simp only [Option.bind_some]
              by_cases hd : d < r
              · rw [if_pos hd, if_neg (by omega)]
              · rw [if_neg hd, if_pos (by omega)]
    · rw [if_pos (Or.inl (by omega))]
      unfold gmpDigit
      rw [if_neg (by omega), if_neg (by omega), if_neg (by omega)]; rfl

theorem isDigit_c {r : Nat} (hr : r ≤ 36) {c : Char} (h : IsDigit r c) : ∃ d, cDigit r c = some d ∧ digitValue c = some d ∧ d < r := by
  obtain ⟨d, h1, h2⟩ := h
  refine ⟨d, ?_, h1, h2⟩
  rw [cDigit_eq r hr, ← digitValue_eq, h1, Option.bind_some, if_pos h2]

theorem isDigit_gmp {r : Nat} {c : Char} (h : IsDigit r c) : ∃ d, gmpDigit c = some d ∧ digitValue c = some d ∧ d < r := by
  obtain ⟨d, h1, h2⟩ := h
  exact ⟨d, by rw [← digitValue_eq]; exact h1, h1, h2⟩

theorem isDigit_range {r : Nat} {c : Char} (h : IsDigit r c) :
    (48 ≤ c.toNat ∧ c.toNat ≤ 57) ∨ (65 ≤ c.toNat ∧ c.toNat ≤ 90) ∨ (97 ≤ c.toNat ∧ c.toNat ≤ 122) := by
  obtain ⟨d, h1, -, -⟩ := isDigit_gmp h
  unfold gmpDigit at h1
  split at h1
  · exact Or.inl (by assumption)
  · split at h1
    · exact Or.inr (Or.inl (by assumption))
    · split at h1
      · exact Or.inr (Or.inr (by assumption))
      · simp at h1

theorem isDigit_not_space {r : Nat} {c : Char} (h : IsDigit r c) : isspace c = false := by
  have := isDigit_range h
  unfold isspace
  simp only [Bool.or_eq_false_iff, beq_eq_false_iff_ne, Bool.and_eq_false_iff, decide_eq_false_iff_not]
  omega

theorem isDigit_ne {r : Nat} {c d : Char} (h : IsDigit r c) (hd : d.toNat < 48 ∨ (57 < d.toNat ∧ d.toNat < 65)) : c ≠ d := by
  rintro rfl
  have := isDigit_range h
  omega

/-- Horner's rule from a value. -/
def horner (r : Nat) (s : List Char) (v : Nat) : Nat := s.foldl (fun v c => v * r + (digitValue c).getD 0) v

theorem horner_cons (r : Nat) (c : Char) (s : List Char) (v : Nat) : horner r (c :: s) v = horner r s (v * r + (digitValue c).getD 0) := rfl

theorem horner_append (r : Nat) (s t : List Char) (v : Nat) : horner r (s ++ t) v = horner r t (horner r s v) := by
  simp only [horner, List.foldl_append]

theorem horner_lt (r : Nat) : ∀ (s : List Char) (v : Nat), (∀ c ∈ s, IsDigit r c) → horner r s v < (v + 1) * r ^ s.length := by
  intro s
  induction s with
  | nil => intro v _; simp [horner]
  | cons c s ih =>
    intro v h
    obtain ⟨d, h1, h2⟩ := h c (by simp)
    rw [horner_cons, h1, Option.getD_some]
    have := ih (v * r + d) fun c hc => h c (by simp [hc])
    have h3 : (v * r + d + 1) * r ^ s.length ≤ (v + 1) * r * r ^ s.length := Nat.mul_le_mul_right _ (by nlinarith)
    rw [List.length_cons, Nat.pow_succ]
    nlinarith

theorem horner_le (r : Nat) : ∀ (s : List Char) (v : Nat), (∀ c ∈ s, IsDigit r c) → v ≤ horner r s v := by
  intro s
  induction s with
  | nil => intro v _; exact Nat.le_refl _
  | cons c s ih =>
    intro v h
    obtain ⟨d, h1, h2⟩ := h c (by simp)
    rw [horner_cons]
    refine Nat.le_trans ?_ (ih _ fun c hc => h c (by simp [hc]))
    nlinarith [Nat.zero_le d]

/-! ### The two parsers on digits -/

theorem nonneg_ge (n : Nat) : -(2 ^ 63) ≤ (n : Int) := Int.le_trans (by decide) (Int.natCast_nonneg n)

theorem longStep_ok {v r d : Nat} (h : v * r + d < 2 ^ 63) : longStep v r d = some ((v * r + d : Nat) : Int) := by
  have h1 : v * r < 2 ^ 63 := Nat.lt_of_le_of_lt (Nat.le_add_right _ _) h
  unfold longStep
  rw [← Int.natCast_mul, ← Int.natCast_add, if_pos]
  exact ⟨⟨nonneg_ge _, by exact_mod_cast h1⟩, nonneg_ge _, by exact_mod_cast h⟩

theorem longStep_over {v r d : Nat} (h : ¬ v * r + d < 2 ^ 63) : longStep v r d = none := by
  unfold longStep
  rw [← Int.natCast_mul, ← Int.natCast_add, if_neg]
  rintro ⟨-, -, h'⟩
  exact h (by exact_mod_cast h')

theorem shortLoop_step {r : Nat} {c : Char} {d v : Nat} (s : List Char) (h1 : cDigit r c = some d) (h : v * r + d < 2 ^ 63) :
    shortLoop r (c :: s) v = shortLoop r s ((v * r + d : Nat) : Int) := by
  rw [shortLoop, h1, Option.elim_some, longStep_ok h, Option.elim_some]

theorem shortLoop_over {r : Nat} {c : Char} {d v : Nat} (s : List Char) (h1 : cDigit r c = some d) (h : ¬ v * r + d < 2 ^ 63) :
    shortLoop r (c :: s) v = .ub := by
  rw [shortLoop, h1, Option.elim_some, longStep_over h, Option.elim_none]

theorem shortLoop_digits (r : Nat) (hr : r ≤ 36) : ∀ (s : List Char) (v : Nat), (∀ c ∈ s, IsDigit r c) → horner r s v < 2 ^ 63 →
    shortLoop r s v = .value (horner r s v) := by
  intro s
  induction s with
  | nil => intro v _ _; rfl
  | cons c s ih =>
    intro v h hlt
    obtain ⟨d, h1, h2, h3⟩ := isDigit_c hr (h c (by simp))
    rw [horner_cons, h2, Option.getD_some] at hlt ⊢
    have hle := horner_le r s (v * r + d) fun c hc => h c (by simp [hc])
    have hb : v * r + d < 2 ^ 63 := Nat.lt_of_le_of_lt hle hlt
    rw [shortLoop_step s h1 hb]
    exact ih _ (fun c hc => h c (by simp [hc])) hlt

theorem gmpDigits_digits (r : Nat) : ∀ (s : List Char) (v : Nat), (∀ c ∈ s, IsDigit r c) → gmpDigits r s v = some (horner r s v) := by
  intro s
  induction s with
  | nil => intro v _; rfl
  | cons c s ih =>
    intro v h
    obtain ⟨d, h1, h2, h3⟩ := isDigit_gmp (h c (by simp))
    unfold gmpDigits
    rw [if_neg (by rw [isDigit_not_space (h c (by simp))]; simp), h1]
    dsimp only
    rw [if_neg (by omega), ih _ fun c hc => h c (by simp [hc]), horner_cons, h2, Option.getD_some]

theorem horner_zeros (r : Nat) : ∀ (s : List Char), (∀ c ∈ s, IsDigit r c) →
    horner r (s.dropWhile fun c => c == '0' || isspace c) 0 = horner r s 0 := by
  intro s
  induction s with
  | nil => intro _; rfl
  | cons c s ih =>
    intro h
    rw [List.dropWhile_cons]
    by_cases hc : c = '0'
    · rw [if_pos (by simp [hc]), ih fun c hc => h c (by simp [hc]), horner_cons, hc]
      have : (digitValue '0').getD 0 = 0 := by decide
      rw [this, Nat.zero_mul]
    · rw [if_neg (by simp [hc, isDigit_not_space (h c (by simp))])]

theorem mpzSetStr_digits (r : Nat) (s : List Char) (hs : s ≠ []) (h : ∀ c ∈ s, IsDigit r c) :
    mpzSetStr r s = some (textValue r s : Int) := by
  cases s with
  | nil => exact absurd rfl hs
  | cons c s =>
    have hc := h c (by simp)
    have e1 : (c :: s).takeWhile (· ≠ '\x00') = c :: s := by
      apply takeWhile_all
      intro x hx
      simp only [decide_eq_true_eq]
      exact isDigit_ne (h x hx) (Or.inl (by decide))
    have e2 : (c :: s).dropWhile isspace = c :: s := by
      rw [List.dropWhile_cons, if_neg (by rw [isDigit_not_space hc]; simp)]
    have e3 : ((c :: s).head? == some '-') = false := by
      simp only [List.head?_cons, beq_eq_false_iff_ne, ne_eq, Option.some.injEq]
      exact isDigit_ne hc (Or.inl (by decide))
    obtain ⟨d, h1, h2, h3⟩ := isDigit_gmp hc
    unfold mpzSetStr
    rw [e1, e2]
    dsimp only
    rw [e3]
    simp only [Bool.false_eq_true, if_false, h1]
    rw [if_neg (by omega), gmpDigits_digits r _ 0, horner_zeros r _ h]
    · rfl
    · intro x hx
      exact h x (List.dropWhile_sublist _ |>.mem hx)

theorem mpzSetStr_minus (r : Nat) (s : List Char) (hs : s ≠ []) (h : ∀ c ∈ s, IsDigit r c) :
    mpzSetStr r ('-' :: s) = some (-(textValue r s : Int)) := by
  cases s with
  | nil => exact absurd rfl hs
  | cons c s =>
    have hc := h c (by simp)
    have e1 : ('-' :: c :: s).takeWhile (· ≠ '\x00') = '-' :: c :: s := by
      apply takeWhile_all
      intro x hx
      simp only [decide_eq_true_eq]
      rcases List.mem_cons.mp hx with rfl | hx
      · decide
      · exact isDigit_ne (h x hx) (Or.inl (by decide))
    have e2 : ('-' :: c :: s).dropWhile isspace = '-' :: c :: s := by
      rw [List.dropWhile_cons, if_neg (by decide)]
    obtain ⟨d, h1, h2, h3⟩ := isDigit_gmp hc
    unfold mpzSetStr
    rw [e1, e2]
    simp only [List.head?_cons, BEq.rfl, if_true, List.tail_cons, h1]
    rw [if_neg (by omega), gmpDigits_digits r _ 0, horner_zeros r _ h]
    · rfl
    · intro x hx
      exact h x (List.dropWhile_sublist _ |>.mem hx)

/-! ### `rep_parse_number` on digits -/

theorem makeLongInt_ofInt (z : Int) : makeLongInt z = ofInt z := by
  unfold makeLongInt ofInt makeInt
  split
  · rename_i h
    unfold minInt maxInt at h
    congr 1
    rw [Int.bmod_eq_of_le] <;> omega
  · rfl

theorem parseInt_digits (r : Nat) (hr : r = 2 ∨ r = 8 ∨ r = 10 ∨ r = 16) (s : List Char) (hs : s ≠ []) (h : ∀ c ∈ s, IsDigit r c)
    (hlen : s.length * 27 < 2 ^ 32) (neg : Bool) :
    parseInt s r neg = .num (ofInt (if neg then -(textValue r s : Int) else textValue r s)) := by
  have hl0 : s.length ≠ 0 := by simpa using hs
  have hmod : s.length % 2 ^ 32 = s.length := Nat.mod_eq_of_lt (by omega)
  have hr36 : r ≤ 36 := by omega
  have hlt := horner_lt r s 0 h
  rw [Nat.zero_add, Nat.one_mul] at hlt
  obtain ⟨b, hb, hbit⟩ : ∃ b, bits r s.length = some b ∧ (b < 62 → r ^ s.length ≤ 2 ^ 61) := by
    rcases hr with rfl | rfl | rfl | rfl
    · refine ⟨_, rfl, fun hb => Nat.pow_le_pow_right (by omega) (by omega)⟩
    · refine ⟨_, rfl, fun hb => ?_⟩
      rw [Nat.mod_eq_of_lt (by omega)] at hb
      calc 8 ^ s.length ≤ 8 ^ 20 := Nat.pow_le_pow_right (by omega) (by omega)
        _ ≤ 2 ^ 61 := by decide
    · refine ⟨_, rfl, fun hb => ?_⟩
      rw [Nat.mod_eq_of_lt (by omega)] at hb
      calc 10 ^ s.length ≤ 10 ^ 18 := Nat.pow_le_pow_right (by omega) (by omega)
        _ ≤ 2 ^ 61 := by decide
    · refine ⟨_, rfl, fun hb => ?_⟩
      rw [Nat.mod_eq_of_lt (by omega)] at hb
      calc 16 ^ s.length ≤ 16 ^ 15 := Nat.pow_le_pow_right (by omega) (by omega)
        _ ≤ 2 ^ 61 := by decide
  unfold parseInt
  dsimp only
  rw [hmod, if_neg hl0, hb, List.take_length]
  dsimp only
  split
  · rename_i hb62
    have hv : textValue r s < 2 ^ 61 := Nat.lt_of_lt_of_le hlt (hbit hb62)
    have := shortLoop_digits r hr36 s 0 h (by show textValue r s < _; omega)
    rw [show ((0 : Nat) : Int) = 0 from rfl] at this
    rw [this]
    show Out.num _ = _
    congr 1
    have hv' : horner r s 0 < 2 ^ 61 := hv
    cases neg with
    | true =>
      simp only [if_true]
      rw [← makeLongInt_ofInt, makeLongInt, if_pos]
      · show makeInt (((horner r s 0 : Nat) : Int) * -1) = makeInt (-((horner r s 0 : Nat) : Int)); congr 1; ring
      · show minInt ≤ -((horner r s 0 : Nat) : Int) ∧ -((horner r s 0 : Nat) : Int) ≤ maxInt
        unfold minInt maxInt; omega
    | false =>
      simp only [Bool.false_eq_true, if_false]
      rw [← makeLongInt_ofInt, makeLongInt, if_pos]
      · rfl
      · show minInt ≤ ((horner r s 0 : Nat) : Int) ∧ ((horner r s 0 : Nat) : Int) ≤ maxInt
        unfold minInt maxInt; omega
  · rw [mpzSetStr_digits r s hs h]
    dsimp only
    rw [maybeDemote_big, makeLongInt_ofInt]

/-! ### Printing -/

theorem digitChar_spec : ∀ d, d < 36 → digitValue (digitChar d) = some d := by decide

theorem digitChar_digit {r d : Nat} (hr : r ≤ 36) (h : d < r) : IsDigit r (digitChar d) := ⟨d, digitChar_spec d (by omega), h⟩

theorem natDigits_spec (r : Nat) (h2 : 2 ≤ r) (hr : r ≤ 36) (n : Nat) :
    natDigits r n ≠ [] ∧ (∀ c ∈ natDigits r n, IsDigit r c) ∧ textValue r (natDigits r n) = n := by
  induction n using Nat.strongRecOn with
  | ind n ih =>
    unfold natDigits
    by_cases h : 2 ≤ r ∧ r ≤ n
    · rw [dif_pos h]
      obtain ⟨i1, i2, i3⟩ := ih (n / r) (Nat.div_lt_self (by omega) (by omega))
      have hm : n % r < r := Nat.mod_lt _ (by omega)
      refine ⟨by simp, ?_, ?_⟩
      · intro c hc
        rcases List.mem_append.mp hc with hc | hc
        · exact i2 c hc
        · rw [List.mem_singleton.mp hc]; exact digitChar_digit hr hm
      · show horner r _ 0 = n
        rw [horner_append]
        show textValue r (natDigits r (n / r)) * r + (digitValue (digitChar (n % r))).getD 0 = n
        rw [i3, digitChar_spec _ (by omega), Option.getD_some]
        exact Nat.div_add_mod' n r
    · rw [dif_neg h]
      have hn : n < r := by omega
      refine ⟨by simp, ?_, ?_⟩
      · intro c hc
        rw [List.mem_singleton.mp hc]; exact digitChar_digit hr hn
      · show 0 * r + (digitValue (digitChar n)).getD 0 = n
        rw [digitChar_spec _ (by omega), Option.getD_some]; omega

/-- A sign and digits. -/
def signed (neg : Bool) (s : List Char) : List Char := if neg then '-' :: s else s

theorem intDigits_signed (r : Nat) (z : Int) : intDigits r z = signed (decide (z < 0)) (natDigits r z.natAbs) := by
  unfold intDigits signed
  by_cases h : z < 0 <;> simp [h]

/-! ### `string->number` -/

theorem prefixes_digit {r0 r : Nat} {c : Char} (s : List Char) (e : Int) (h : IsDigit r0 c) : prefixes (c :: s) r e = some (c :: s, r, e) := by
  have hc : c ≠ '#' := isDigit_ne h (Or.inl (by decide))
  unfold prefixes
  split
  · rename_i heq; injection heq with h1; exact absurd h1 hc
  · rename_i heq; injection heq with h1; exact absurd h1 hc
  · rfl

theorem prefixes_minus (s : List Char) (r : Nat) (e : Int) : prefixes ('-' :: s) r e = some ('-' :: s, r, e) := by
  unfold prefixes
  split
  · rename_i heq; injection heq with h1; exact absurd h1 (by decide)
  · rename_i heq; injection heq with h1; exact absurd h1 (by decide)
  · rfl

theorem prefixes_signed {r0 r : Nat} {neg : Bool} {s : List Char} (t : List Char) (hs : s ≠ []) (h : ∀ c ∈ s, IsDigit r0 c) (e : Int) :
    prefixes (signed neg s ++ t) r e = some (signed neg s ++ t, r, e) := by
  cases neg with
  | true => exact prefixes_minus _ _ _
  | false =>
    cases s with
    | nil => exact absurd rfl hs
    | cons c s => exact prefixes_digit _ _ (h c (by simp))

theorem sign_signed {r : Nat} {neg : Bool} {s : List Char} (t : List Char) (hs : s ≠ []) (h : ∀ c ∈ s, IsDigit r c) :
    sign (signed neg s ++ t) = (neg, s ++ t) := by
  cases neg with
  | true => rfl
  | false =>
    cases s with
    | nil => exact absurd rfl hs
    | cons c s =>
      have hc := h c (by simp)
      have h1 : c ≠ '-' := isDigit_ne hc (Or.inl (by decide))
      have h2 : c ≠ '+' := isDigit_ne hc (Or.inl (by decide))
      show sign (c :: (s ++ t)) = _
      unfold sign
      split
      · rename_i heq; injection heq with e; exact absurd e h1
      · rename_i heq; injection heq with e; exact absurd e h2
      · rfl

theorem mem_cString {s : List Char} {c : Char} (h : c ∈ cString s) : c ∈ s := (List.takeWhile_sublist _).mem h

theorem stringToNumber_digits (r : Nat) (hr : r = 2 ∨ r = 8 ∨ r = 10 ∨ r = 16) (neg : Bool) (s : List Char) (hs : s ≠ [])
    (h : ∀ c ∈ s, IsDigit r c) (hlen : s.length * 27 < 2 ^ 32) :
    stringToNumber (signed neg s) r = .num (ofInt (if neg then -(textValue r s : Int) else textValue r s)) := by
  have e1 : prefixes (signed neg s) r 0 = some (signed neg s, r, 0) := by simpa using prefixes_signed (neg := neg) [] hs h 0
  have e2 : sign (signed neg s) = (neg, s) := by simpa using sign_signed (neg := neg) [] hs h
  unfold stringToNumber
  rw [e1]
  dsimp only
  unfold parse
  rw [e2]
  dsimp only
  rw [if_neg (fun hm => isDigit_ne (h _ (mem_cString hm)) (Or.inl (by decide)) rfl), if_neg, parseInt_digits r hr s hs h hlen]
  · rfl
  · rintro ⟨rfl, hm⟩
    rcases hm with hm | hm | hm
    · exact isDigit_ne (h _ (mem_cString hm)) (Or.inl (by decide)) rfl
    · obtain ⟨d, hd, hlt⟩ := h _ (mem_cString hm)
      have : digitValue 'e' = some 14 := by decide
      rw [this] at hd; cases hd; omega
    · obtain ⟨d, hd, hlt⟩ := h _ (mem_cString hm)
      have : digitValue 'E' = some 14 := by decide
      rw [this] at hd; cases hd; omega

/-! ### C08 -/

/-- **C08** (partial): `string->number` of a sign (or none) and digits in base 2, 8, 10 or 16
is the integer that they stand for, if there are fewer than 2^32/27 of them. -/
theorem C08_parse_partial (r : Nat) (hr : r = 2 ∨ r = 8 ∨ r = 10 ∨ r = 16) (neg : Bool) (s : List Char) (hs : s ≠ [])
    (h : ∀ c ∈ s, IsDigit r c) (hlen : s.length * 27 < 2 ^ 32) :
    stringToNumber (signed neg s) r = .num (ofInt (if neg then -(textValue r s : Int) else textValue r s)) :=
  stringToNumber_digits r hr neg s hs h hlen

theorem ofInt_canonical {n : Num} (h : Canonical n) (hi : IsInteger n) : n = ofInt (intValue n) := by
  cases n with
  | fix w =>
    simp only [Canonical] at h
    show _ = ofInt w; unfold ofInt minInt maxInt; rw [if_pos (by omega)]
  | big z =>
    simp only [Canonical] at h
    show _ = ofInt z; unfold ofInt minInt maxInt; rw [if_neg (by omega)]
  | rat q =>
    exfalso
    obtain ⟨z, hz⟩ := hi
    have : q.den = 1 := by
      have hq : q = (z : Rat) := hz
      rw [hq]; rfl
    exact h this

/-- **C08** (partial): the text of an integer in base 2, 8, 10 or 16 is read back as that
integer, unless it is a negative fixnum printed in base 8 or 16, or has more than 2^32/27
digits. -/
theorem C08_round_trip_partial (n : Num) (hc : Canonical n) (hi : IsInteger n) (r : Nat) (hr : r = 2 ∨ r = 8 ∨ r = 10 ∨ r = 16)
    (hneg : 0 ≤ intValue n ∨ (∃ z, n = .big z) ∨ r = 2 ∨ r = 10) (hlen : (numberToString n r).length * 27 < 2 ^ 32) :
    stringToNumber (numberToString n r) r = .num n := by
  have key : ∀ z : Int, (intDigits r z).length * 27 < 2 ^ 32 → stringToNumber (intDigits r z) r = .num (ofInt z) := by
    intro z hl
    obtain ⟨h1, h2, h3⟩ := natDigits_spec r (by omega) (by omega) z.natAbs
    rw [intDigits_signed] at hl ⊢
    rw [stringToNumber_digits r hr _ _ h1 h2 (by
      refine Nat.lt_of_le_of_lt (Nat.mul_le_mul_right _ ?_) hl
      unfold signed; split <;> simp), h3]
    congr 2
    by_cases hz : z < 0
    · simp only [hz, decide_true, if_true]; omega
    · simp only [hz, decide_false, Bool.false_eq_true, if_false]; omega
  cases n with
  | fix w =>
    have hw : minInt ≤ w ∧ w ≤ maxInt := by simp only [Canonical] at hc; unfold minInt maxInt; omega
    have e : Num.fix w = ofInt w := by unfold ofInt; rw [if_pos hw]
    unfold numberToString at hlen ⊢
    dsimp only at hlen ⊢
    rcases hr with rfl | rfl | rfl | rfl
    · rw [e]; exact key w hlen
    · have h0 : 0 ≤ w := by
        rcases hneg with h | ⟨z, h⟩ | h | h
        · exact h
        · cases h
        · omega
        · omega
      have hm : intDigits 8 w = natDigits 8 (w % 2 ^ 64).toNat := by
        unfold intDigits
        rw [if_neg (by omega)]
        congr 1
        unfold maxInt at hw
        omega
      simp only [show (8 : Nat) ≠ 10 from by omega, show (8 : Nat) ≠ 16 from by omega, if_false, if_true] at hlen ⊢
      rw [← hm] at hlen ⊢
      rw [e]; exact key w hlen
    · rw [e]; exact key w hlen
    · have h0 : 0 ≤ w := by
        rcases hneg with h | ⟨z, h⟩ | h | h
        · exact h
        · cases h
        · omega
        · omega
      have hm : intDigits 16 w = natDigits 16 (w % 2 ^ 64).toNat := by
        unfold intDigits
        rw [if_neg (by omega)]
        congr 1
        unfold maxInt at hw
        omega
      simp only [show (16 : Nat) ≠ 10 from by omega, if_false, if_true] at hlen ⊢
      rw [← hm] at hlen ⊢
      rw [e]; exact key w hlen
  | big z =>
    have e : Num.big z = ofInt z := ofInt_canonical hc hi
    have := key z hlen
    rw [← e] at this
    exact this
  | rat q => exact absurd (ofInt_canonical hc hi) (by unfold ofInt; split <;> simp)

/-- C08 is false of every negative fixnum in base 16 (and 8): it is printed as the unsigned
64-bit number with the same bits, and read back as that. -/
theorem C08_violated (w : Int) (hw : minInt ≤ w) (h0 : w < 0) (r : Nat) (hr : r = 8 ∨ r = 16) :
    stringToNumber (numberToString (.fix w) r) r = .num (.big (2 ^ 64 + w)) := by
  have hm : numberToString (.fix w) r = natDigits r (2 ^ 64 + w).toNat := by
    have : w % 2 ^ 64 = 2 ^ 64 + w := by unfold minInt at hw; omega
    unfold numberToString
    rcases hr with rfl | rfl <;> dsimp only <;> rw [this] <;> rfl
  obtain ⟨h1, h2, h3⟩ := natDigits_spec r (by omega) (by omega) (2 ^ 64 + w).toNat
  have hl : (natDigits r (2 ^ 64 + w).toNat).length ≤ 65 := by
    have : ∀ k n, n < 2 ^ k → (natDigits r n).length ≤ k + 1 := by
      intro k
      induction k with
      | zero => intro n hn; unfold natDigits; rw [dif_neg (by omega)]; simp
      | succ k ih =>
        intro n hn
        unfold natDigits
        split
        · have := ih (n / r) (by
            rw [Nat.div_lt_iff_lt_mul (by omega)]
            rw [Nat.pow_succ] at hn
            have : 2 ^ k * 2 ≤ 2 ^ k * r := Nat.mul_le_mul_left _ (by omega)
            omega)
          simp only [List.length_append, List.length_cons, List.length_nil]; omega
        · simp
    exact this 64 _ (by omega)
  have := stringToNumber_digits r (by omega) false _ h1 h2 (by omega)
  rw [hm]
  simp only [signed, Bool.false_eq_true, if_false] at this
  rw [this, h3]
  unfold ofInt
  rw [if_neg]
  · congr 2; unfold minInt at hw; omega
  · unfold maxInt minInt at *; omega

example : stringToNumber (numberToString (.fix (-255)) 16) 16 = .num (.big (2 ^ 64 - 255)) := C08_violated (-255) (by decide) (by decide) 16 (Or.inr rfl)
/-- A value between the two parsers. -/
example : stringToNumber (numberToString (.fix (2 ^ 60)) 10) 10 = .num (.fix (2 ^ 60)) :=
  C08_round_trip_partial _ (by simp only [Canonical]; decide) ⟨2 ^ 60, by simp [value]⟩ 10 (by omega) (Or.inl (by decide)) (by
    have : (numberToString (.fix (2 ^ 60)) 10).length = 19 := by simp [numberToString, intDigits, natDigits]
    omega)

/-- Any other base: `number->string` works, but `string->number` of a text of digits calls
`abort`, which ends the program. -/
theorem C08_radix_violated (r : Nat) (h2 : 2 ≤ r) (hr : r ≤ 36) (hn : r ≠ 2 ∧ r ≠ 8 ∧ r ≠ 10 ∧ r ≠ 16) (w : Int)
    (hlen : (numberToString (.fix w) r).length < 2 ^ 32) : stringToNumber (numberToString (.fix w) r) r = .abort := by
  obtain ⟨h1, h2', h3⟩ := natDigits_spec r h2 hr w.natAbs
  have e : numberToString (.fix w) r = signed (decide (w < 0)) (natDigits r w.natAbs) := by
    unfold numberToString
    dsimp only
    rw [if_neg hn.2.2.1, if_neg hn.2.2.2, if_neg hn.2.1, intDigits_signed]
  rw [e] at hlen ⊢
  generalize natDigits r w.natAbs = s at *
  have e1 : prefixes (signed (decide (w < 0)) s) r 0 = some (signed (decide (w < 0)) s, r, 0) := by simpa using prefixes_signed (neg := decide (w < 0)) [] h1 h2' 0
  have e2 : sign (signed (decide (w < 0)) s) = (decide (w < 0), s) := by simpa using sign_signed (neg := decide (w < 0)) [] h1 h2'
  unfold stringToNumber
  rw [e1]
  dsimp only
  unfold parse
  rw [e2]
  dsimp only
  rw [if_neg (fun hm => isDigit_ne (h2' _ (mem_cString hm)) (Or.inl (by decide)) rfl), if_neg (by omega)]
  unfold parseInt
  dsimp only
  have hl : s.length < 2 ^ 32 := by
    refine Nat.lt_of_le_of_lt ?_ hlen
    unfold signed; split <;> simp
  rw [Nat.mod_eq_of_lt hl, if_neg (by simpa using h1)]
  have : bits r s.length = none := by
    unfold bits
    split
    · exact absurd rfl hn.1
    · exact absurd rfl hn.2.1
    · exact absurd rfl hn.2.2.1
    · exact absurd rfl hn.2.2.2
    · rfl
  rw [this]

theorem takeWhile_append_stop {p : Char → Bool} {s t : List Char} {c : Char} (h : ∀ x ∈ s, p x = true) (hc : p c = false) :
    (s ++ c :: t).takeWhile p = s ∧ (s ++ c :: t).dropWhile p = c :: t := by
  induction s with
  | nil => simp [hc]
  | cons a s ih =>
    have := ih fun x hx => h x (by simp [hx])
    simp [h a (by simp), this.1, this.2]

/-- **C08**: the text of a fraction is read back as that fraction, in every base from 2 to
36, if it has fewer than 2^32 characters. -/
theorem C08_rational (q : Rat) (hq : q.den ≠ 1) (r : Nat) (h2 : 2 ≤ r) (hr : r ≤ 36) (hlen : (numberToString (.rat q) r).length < 2 ^ 32) :
    stringToNumber (numberToString (.rat q) r) r = .num (.rat q) := by
  obtain ⟨n1, n2, n3⟩ := natDigits_spec r h2 hr q.num.natAbs
  obtain ⟨d1, d2, d3⟩ := natDigits_spec r h2 hr q.den
  have ed : intDigits r q.den = natDigits r q.den := by
    unfold intDigits; rw [if_neg (by omega)]; simp
  have e : numberToString (.rat q) r = signed (decide (q.num < 0)) (natDigits r q.num.natAbs) ++ '/' :: natDigits r q.den := by
    unfold numberToString; dsimp only; rw [ed, intDigits_signed]
  rw [e] at hlen ⊢
  have hn0 : ∀ c ∈ natDigits r q.num.natAbs, c ≠ '\x00' := fun c hc => isDigit_ne (n2 c hc) (Or.inl (by decide))
  have hd0 : ∀ c ∈ natDigits r q.den, c ≠ '\x00' := fun c hc => isDigit_ne (d2 c hc) (Or.inl (by decide))
  have hns : ∀ c ∈ natDigits r q.num.natAbs, c ≠ '/' := fun c hc => isDigit_ne (n2 c hc) (Or.inl (by decide))
  generalize hN : natDigits r q.num.natAbs = N at *
  generalize hD : natDigits r q.den = D at *
  have ecs : cString (N ++ '/' :: D) = N ++ '/' :: D := by
    apply takeWhile_all
    intro x hx
    simp only [decide_eq_true_eq]
    rcases List.mem_append.mp hx with hx | hx
    · exact hn0 x hx
    · rcases List.mem_cons.mp hx with rfl | hx
      · decide
      · exact hd0 x hx
  have hsplit := takeWhile_append_stop (p := (· ≠ '/')) (s := N) (t := D) (c := '/') (fun x hx => by simpa using hns x hx) (by simp)
  unfold stringToNumber
  rw [prefixes_signed _ n1 n2]
  dsimp only
  unfold parse
  rw [sign_signed _ n1 n2]
  dsimp only
  rw [if_pos (by rw [ecs]; simp)]
  unfold parseRat
  have hl : (N ++ '/' :: D).length < 2 ^ 32 := by
    refine Nat.lt_of_le_of_lt ?_ hlen
    unfold signed; split <;> simp
  rw [Nat.mod_eq_of_lt hl, if_neg (by simp), ecs, hsplit.1, hsplit.2, List.tail_cons, mpzSetStr_digits r N n1 n2, mpzSetStr_digits r D d1 d2, n3, d3]
  dsimp only
  rw [if_neg (by have := q.den_nz; exact_mod_cast this)]
  have : (if decide (q.num < 0) = true then -((((q.num.natAbs : Nat) : Int) : Rat) / (((q.den : Nat) : Int) : Rat))
      else (((q.num.natAbs : Nat) : Int) : Rat) / (((q.den : Nat) : Int) : Rat)) = q := by
    have hd : (((q.den : Nat) : Int) : Rat) = (q.den : Rat) := by push_cast; rfl
    rw [hd]
    by_cases h : q.num < 0
    · rw [if_pos (by simpa using h)]
      have : (((q.num.natAbs : Nat) : Int)) = -q.num := by omega
      rw [this]; push_cast; rw [neg_div, neg_neg]; exact Rat.num_div_den q
    · rw [if_neg (by simpa using h)]
      have : (((q.num.natAbs : Nat) : Int)) = q.num := by omega
      rw [this]; exact Rat.num_div_den q
  rw [this, maybeDemote_rat_ne hq]
  rfl

example : stringToNumber (numberToString (.rat (-5 / 36)) 7) 7 = .num (.rat (-5 / 36)) :=
  C08_rational (-5 / 36) (by decide +kernel) 7 (by omega) (by omega) (by decide +kernel)

/-! ### Texts that are not numbers -/

theorem shortLoop_bad (r : Nat) (hr : r ≤ 36) : ∀ (s : List Char) (v : Nat), (∃ c ∈ s, ¬ IsDigit r c) →
    shortLoop r s v = .bad ∨ shortLoop r s v = .ub := by
  intro s
  induction s with
  | nil => intro v h; simp at h
  | cons c s ih =>
    intro v h
    cases hc : cDigit r c with
    | none => exact Or.inl (by rw [shortLoop, hc, Option.elim_none])
    | some d =>
      have hd : IsDigit r c := by
        rw [cDigit_eq r hr, ← digitValue_eq] at hc
        cases hv : digitValue c with
        | none => rw [hv] at hc; simp at hc
        | some d' =>
          rw [hv, Option.bind_some] at hc
          split at hc
          · exact ⟨d', hv, by assumption⟩
          · simp at hc
      have h' : ∃ c ∈ s, ¬ IsDigit r c := by
        obtain ⟨x, hx, hn⟩ := h
        rcases List.mem_cons.mp hx with rfl | hx
        · exact absurd hd hn
        · exact ⟨x, hx, hn⟩
      by_cases hb : v * r + d < 2 ^ 63
      · rw [shortLoop_step s hc hb]; exact ih _ h'
      · exact Or.inr (shortLoop_over s hc hb)

/-- **C08** (partial): a short text, without a slash (and in base 10 without a point or an
exponent), that has a character which is no digit after the prefix and the sign is not
a number. -/
theorem C08_reject_partial (r : Nat) (hr : r = 2 ∨ r = 8 ∨ r = 10 ∨ r = 16) (s : List Char) (hbad : ∃ c ∈ s, ¬ IsDigit r c)
    (hlen : s.length ≤ 15) (neg : Bool) : parseInt s r neg = .nil := by
  have hl0 : s.length ≠ 0 := by
    obtain ⟨c, hc, _⟩ := hbad
    have := List.length_pos_of_mem hc
    omega
  obtain ⟨b, hb, hb62⟩ : ∃ b, bits r s.length = some b ∧ b < 62 := by
    rcases hr with rfl | rfl | rfl | rfl
    · exact ⟨_, rfl, by omega⟩
    · exact ⟨_, rfl, by rw [Nat.mod_eq_of_lt (by omega)]; omega⟩
    · exact ⟨_, rfl, by rw [Nat.mod_eq_of_lt (by omega)]; omega⟩
    · exact ⟨_, rfl, by rw [Nat.mod_eq_of_lt (by omega)]; omega⟩
  unfold parseInt
  dsimp only
  rw [Nat.mod_eq_of_lt (by omega), if_neg hl0, hb, List.take_length]
  dsimp only
  rw [if_pos hb62]
  have hnoub : ∀ (s : List Char) (v : Nat), (v + 1) * r ^ s.length ≤ 2 ^ 61 → shortLoop r s v ≠ .ub := by
    intro s
    induction s with
    | nil => intro v _; simp [shortLoop]
    | cons c s ih =>
      intro v hv
      cases hc : cDigit r c with
      | none => rw [shortLoop, hc, Option.elim_none]; simp
      | some d =>
        have hd : d < r := by
          rw [cDigit_eq r (by omega)] at hc
          cases hg : gmpDigit c with
          | none => rw [hg] at hc; simp at hc
          | some d' =>
            rw [hg, Option.bind_some] at hc
            split at hc
            · cases hc; assumption
            · simp at hc
        have hpos : 0 < r ^ s.length := Nat.pow_pos (by omega)
        rw [List.length_cons, Nat.pow_succ] at hv
        have h1 : (v * r + d + 1) * r ^ s.length ≤ 2 ^ 61 := by
          refine Nat.le_trans ?_ hv
          have : v * r + d + 1 ≤ (v + 1) * r := by nlinarith
          calc (v * r + d + 1) * r ^ s.length ≤ ((v + 1) * r) * r ^ s.length := Nat.mul_le_mul_right _ this
            _ = (v + 1) * (r ^ s.length * r) := by ring
        have h2 : v * r + d < 2 ^ 63 := by nlinarith
        rw [shortLoop_step s hc h2]
        exact ih _ h1
  have := hnoub s 0 (by
    rw [Nat.zero_add, Nat.one_mul]
    calc r ^ s.length ≤ 16 ^ s.length := Nat.pow_le_pow_left (by omega) _
      _ ≤ 16 ^ 15 := Nat.pow_le_pow_right (by omega) hlen
      _ ≤ 2 ^ 61 := by decide)
  rcases shortLoop_bad r (by omega) s 0 hbad with h | h
  · rw [show ((0 : Nat) : Int) = 0 from rfl] at h
    rw [h]
  · exact absurd h this

/-- Longer texts are given to GMP, which ignores white space, takes a second sign, and stops
at a NUL: these are all accepted, although their short versions are not. -/
theorem C08_reject_violated :
    stringToNumber "--12345678901234567890".toList 10 = .num (.big 12345678901234567890) ∧
    stringToNumber " 1234567890 1234567890".toList 10 = .num (.big 12345678901234567890) ∧
    stringToNumber ("12345678901234567890".toList ++ ['\x00', 'x']) 10 = .num (.big 12345678901234567890) ∧
    stringToNumber "--1234567890".toList 10 = .nil ∧ stringToNumber " 12345 67890".toList 10 = .nil := by decide +kernel

theorem shortLoop_digits_over (r : Nat) (hr : r ≤ 36) : ∀ (s : List Char) (v : Nat), v < 2 ^ 63 → (∀ c ∈ s, IsDigit r c) → ¬ horner r s v < 2 ^ 63 →
    shortLoop r s v = .ub := by
  intro s
  induction s with
  | nil => intro v hv _ h; exact absurd hv h
  | cons c s ih =>
    intro v hv h hlt
    obtain ⟨d, h1, h2, h3⟩ := isDigit_c hr (h c (by simp))
    rw [horner_cons, h2, Option.getD_some] at hlt
    by_cases hb : v * r + d < 2 ^ 63
    · rw [shortLoop_step s h1 hb]
      exact ih _ hb (fun c hc => h c (by simp [hc])) hlt
    · exact shortLoop_over s h1 hb

theorem horner_nines : ∀ (n v : Nat), horner 10 (List.replicate n '9') v + 1 = (v + 1) * 10 ^ n := by
  intro n
  induction n with
  | zero => intro v; simp [horner]
  | succ n ih =>
    intro v
    rw [List.replicate_succ, horner_cons, ih]
    have : (digitValue '9').getD 0 = 9 := by decide
    rw [this, Nat.pow_succ]
    ring

/-- The guard on the length in `C08_parse_partial` is needed: with 159072863 digits
(for instance) the estimate of the number of bits wraps around to 0, the text is parsed into
a `long`, and that overflows (undefined behaviour). -/
theorem C08_length_violated (n : Nat) (h19 : 19 ≤ n) (hn : n < 2 ^ 32) (hb : n * 27 % 2 ^ 32 / 8 < 62) :
    stringToNumber (List.replicate n '9') 10 = .ub := by
  have hs : List.replicate n '9' ≠ [] := by rw [Ne, List.replicate_eq_nil_iff]; omega
  have h : ∀ c ∈ List.replicate n '9', IsDigit 10 c := by
    intro c hc
    rw [List.eq_of_mem_replicate hc]
    exact ⟨9, by decide, by decide⟩
  have hval := horner_nines n 0
  have hlen : (List.replicate n '9').length = n := List.length_replicate
  have hbig : ¬ horner 10 (List.replicate n '9') 0 < 2 ^ 63 := by
    have : (10 : Nat) ^ 19 ≤ 10 ^ n := Nat.pow_le_pow_right (by decide) h19
    rw [Nat.zero_add, Nat.one_mul] at hval
    intro hlt
    have h1 : (10 : Nat) ^ n ≤ 2 ^ 63 := by rw [← hval]; exact hlt
    exact absurd (Nat.le_trans this h1) (by decide)
  generalize List.replicate n '9' = s at *
  have e1 : prefixes s 10 0 = some (s, 10, 0) := by simpa [signed] using prefixes_signed (neg := false) (r := 10) [] hs h 0
  have e2 : sign s = (false, s) := by simpa [signed] using sign_signed (neg := false) [] hs h
  unfold stringToNumber
  rw [e1]
  dsimp only
  unfold parse
  rw [e2]
  dsimp only
  rw [if_neg (fun hm => isDigit_ne (h _ (mem_cString hm)) (Or.inl (by decide)) rfl), if_neg]
  · unfold parseInt
    dsimp only
    rw [hlen]
    have hbits : bits 10 n = some (n * 27 % 2 ^ 32 / 8) := rfl
    have ht : s.take n = s := List.take_of_length_le (by rw [hlen])
    have hl := shortLoop_digits_over 10 (by decide) s 0 (by decide) h hbig
    rw [show ((0 : Nat) : Int) = 0 from rfl] at hl
    rw [Nat.mod_eq_of_lt hn, if_neg (by omega), hbits, ht]
    dsimp only
    rw [if_pos hb, hl]
  · rintro ⟨-, hm⟩
    rcases hm with hm | hm | hm
    · exact isDigit_ne (h _ (mem_cString hm)) (Or.inl (by decide)) rfl
    · obtain ⟨d, hd, hlt⟩ := h _ (mem_cString hm)
      rw [show digitValue 'e' = some 14 by decide] at hd; cases hd; omega
    · obtain ⟨d, hd, hlt⟩ := h _ (mem_cString hm)
      rw [show digitValue 'E' = some 14 by decide] at hd; cases hd; omega

example : 19 ≤ 159072863 ∧ 159072863 < 2 ^ 32 ∧ 159072863 * 27 % 2 ^ 32 / 8 < 62 := by decide

end Rep.NumText
