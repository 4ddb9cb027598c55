import Verif.Num.RandomModel
import Verif.Num.Lemmas2
import Mathlib.Data.Finset.Prod
import Mathlib.Data.Nat.Bitwise
import Mathlib.Tactic.Ring
import Mathlib.Tactic.Linarith

/-
C111: random numbers.
-/

namespace Rep.Number

/-- With a generator that keeps to its limit, `random` gives an integer that is not negative and less than the limit, and
signals an error for limits that are not positive.
Missing: limits, fixnums themselves, which are not between -2^31 and 2^31. -/
theorem C111_range_partial (g : Int → Int) (hg : ∀ n, 0 < n → 0 ≤ g n ∧ g n < n) (n : Num) (hn : ∀ q, n ≠ .rat q)
    (hc : Comparable n (.fix 0)) :
    (0 < value n → ∃ r, random g (.num n) = .ok (.num r) ∧ Canonical r ∧ IsInteger r ∧ 0 ≤ value r ∧ value r < value n) ∧
    (value n ≤ 0 → random g (.num n) = .argError 1) := by
  obtain ⟨h1, h2⟩ := compare_spec hc
  have h0 : value (.fix 0) = 0 := rfl
  rw [h0] at h1 h2
  have key : ∀ z : Int, value n = z → randomNew g n = maybeDemote (.big (g z)) → random g (.num n) = randomLimit g n →
      (0 < value n → ∃ r, random g (.num n) = .ok (.num r) ∧ Canonical r ∧ IsInteger r ∧ 0 ≤ value r ∧ value r < value n) ∧
      (value n ≤ 0 → random g (.num n) = .argError 1) := by
    intro z hz hr he
    refine ⟨fun hp => ?_, fun hp => ?_⟩
    · have : ¬ compare n (.fix 0) ≤ 0 := by
        intro h
        rcases lt_or_eq_of_le h with h | h
        · exact absurd (h1.1 h) (not_lt.2 hp.le)
        · exact absurd (h2.1 h) hp.ne'
      rw [he, randomLimit, if_neg this, hr, maybeDemote_big]
      obtain ⟨g1, g2⟩ := hg z (by rw [hz] at hp; exact_mod_cast hp)
      refine ⟨_, rfl, makeLongInt_canonical _, ⟨g z, makeLongInt_value _⟩, ?_, ?_⟩
      · rw [makeLongInt_value]; exact_mod_cast g1
      · rw [makeLongInt_value, hz]; exact_mod_cast g2
    · have : compare n (.fix 0) ≤ 0 := by
        rcases lt_or_eq_of_le hp with h | h
        · exact (h1.2 h).le
        · exact (h2.2 h).le
      rw [he, randomLimit, if_pos this]
  cases n with
  | fix w => exact key w rfl rfl rfl
  | big z => exact key z rfl rfl rfl
  | rat q => exact absurd rfl (hn q)

/-- `(random 100)` -/
example : Comparable (.fix 100) (.fix 0) ∧ random (fun n => n - 1) (.num (.fix 100)) = .ok (.num (.fix 99)) := by
  constructor
  · intro a b ha hb
    cases ha; cases hb
    norm_num
  · decide

/-- A limit of 2^64 -/
example (g : Int → Int) (hg : ∀ n, 0 < n → 0 ≤ g n ∧ g n < n) : ∃ r, random g (.num (.big (2 ^ 64))) = .ok (.num r) := by
  obtain ⟨r, h, _⟩ := (C111_range_partial g hg (.big (2 ^ 64)) (fun _ h => nomatch h) (fun a b h _ => nomatch h)).1 (by norm_num [value])
  exact ⟨r, h⟩

/-- Without an argument `random` always signals an error: the greatest fixnum less zero, as an `int`, is -1. -/
theorem C111_default_violated (g : Int → Int) : random g .missing = .argError 1 := by
  have : compare (.fix maxInt) (.fix 0) ≤ 0 := by decide
  rw [random, randomLimit, if_pos this]

/-- So do limits such as 2^31, or any multiple of 2^32. -/
theorem C111_large_violated (g : Int → Int) : random g (.num (.fix (2 ^ 31))) = .argError 1 ∧
    ∀ k, random g (.num (.fix (k * 2 ^ 32))) = .argError 1 := by
  refine ⟨?_, fun k => ?_⟩
  · have : compare (.fix (2 ^ 31)) (.fix 0) ≤ 0 := by decide
    rw [random, randomLimit, if_pos this]
    intro q h; cases h
  · have : compare (.fix (k * 2 ^ 32)) (.fix 0) ≤ 0 := by
      show toCInt (k * 2 ^ 32 - 0) ≤ 0
      unfold toCInt
      simp [Int.bmod]
    rw [random, randomLimit, if_pos this]
    intro q h; cases h

/-- Some negative limits are accepted. -/
theorem C111_negative_violated (g : Int → Int) : ∃ r, random g (.num (.fix (5 - 2 ^ 32))) = .ok (.num r) := by
  have : ¬ compare (.fix (5 - 2 ^ 32)) (.fix 0) ≤ 0 := by decide
  refine ⟨randomNew g (.fix (5 - 2 ^ 32)), ?_⟩
  rw [random, randomLimit, if_neg this]
  intro q h; cases h

theorem combine_eq {r1 r2 : Nat} (h2 : r2 < randMax) : combine r1 r2 = r1 % 2 ^ 30 * 2 ^ 31 + r2 := by
  unfold combine
  unfold randMax at h2
  rw [Nat.and_two_pow_sub_one_eq_mod, ← Nat.shiftLeft_add_eq_or_of_lt h2, Nat.shiftLeft_eq]
  omega

/-- Without GMP: every result is less than the limit, and it is made from the first pair of draws that gives such a number. -/
theorem C111_draws (limit : Nat) (l : List (Nat × Nat)) (v : Nat) : randLoop limit l = some v ↔
    ∃ a r1 r2 b, l = a ++ (r1, r2) :: b ∧ v = combine r1 r2 / randDivisor limit ∧ v < limit ∧
      ∀ p ∈ a, limit ≤ combine p.1 p.2 / randDivisor limit := by
  induction l with
  | nil => simp [randLoop]
  | cons p l ih =>
    obtain ⟨r1, r2⟩ := p
    rw [randLoop]
    by_cases h : combine r1 r2 / randDivisor limit ≥ limit
    · simp only [h, if_true]
      rw [ih]
      constructor
      · rintro ⟨a, s1, s2, b, rfl, hv, hl, ha⟩
        refine ⟨(r1, r2) :: a, s1, s2, b, rfl, hv, hl, ?_⟩
        intro p hp
        rcases List.mem_cons.1 hp with rfl | hp
        · exact h
        · exact ha p hp
      · rintro ⟨a, s1, s2, b, e, hv, hl, ha⟩
        cases a with
        | nil =>
          cases e
          omega
        | cons p a =>
          cases e
          exact ⟨a, s1, s2, b, rfl, hv, hl, fun p hp => ha p (List.mem_cons_of_mem _ hp)⟩
    · simp only [h, if_false, Option.some.injEq]
      constructor
      · rintro rfl
        exact ⟨[], r1, r2, l, rfl, rfl, by omega, fun p hp => nomatch hp⟩
      · rintro ⟨a, s1, s2, b, e, hv, hl, ha⟩
        cases a with
        | nil => cases e; exact hv.symm
        | cons p a =>
          cases e
          exact (h (ha (r1, r2) (List.mem_cons_self ..))).elim

set_option linter.constructorNameAsVariable false in
/-- Without GMP: each number less than the limit is given by equally many pairs of draws. -/
theorem C111_uniform (limit k : Nat) (hk : k < limit) (hl : limit < 2 ^ 61) :
    (((Finset.range randMax ×ˢ Finset.range randMax).filter fun p => combine p.1 p.2 / randDivisor limit = k).card) = 2 * randDivisor limit := by
  have hd : 0 < randDivisor limit := by
    unfold randDivisor
    exact Nat.div_pos (by omega) (by omega)
  have hm : randDivisor limit * limit ≤ 2 ^ 61 - 1 := by
    unfold randDivisor
    exact Nat.div_mul_le_self _ _
  generalize hD : randDivisor limit = D at *
  have hkm : (k + 1) * D ≤ 2 ^ 61 - 1 := le_trans (Nat.mul_le_mul_right D hk) (by rw [Nat.mul_comm]; exact hm)
  have hkm' : k * D + D ≤ 2 ^ 61 - 1 := by rw [← Nat.succ_mul]; exact hkm
  have hc : ((Finset.range 2 ×ˢ Finset.range D).card) = 2 * D := by simp
  rw [← hc]
  symm
  apply Finset.card_nbij' (fun p => (p.1 * 2 ^ 30 + (k * D + p.2) / 2 ^ 31, (k * D + p.2) % 2 ^ 31))
    (fun p => (p.1 / 2 ^ 30, combine p.1 p.2 - k * D))
  · rintro ⟨b, j⟩ hp
    simp only [Finset.coe_product, Finset.coe_range, Set.mem_prod, Set.mem_Iio] at hp
    simp only [Finset.coe_filter, Finset.mem_product, Finset.mem_range, Set.mem_ofPred_eq]
    have hr : (k * D + j) % 2 ^ 31 < randMax := Nat.mod_lt _ (by norm_num)
    refine ⟨⟨?_, hr⟩, ?_⟩
    · unfold randMax; omega
    · rw [combine_eq hr]
      have : (b * 2 ^ 30 + (k * D + j) / 2 ^ 31) % 2 ^ 30 * 2 ^ 31 + (k * D + j) % 2 ^ 31 = k * D + j := by omega
      rw [this]
      rw [Nat.div_eq_iff hd]
      constructor
      · omega
      · have := hp.2; omega
  · rintro ⟨r1, r2⟩ hp
    simp only [Finset.coe_filter, Finset.mem_product, Finset.mem_range, Set.mem_ofPred_eq] at hp
    simp only [Finset.coe_product, Finset.coe_range, Set.mem_prod, Set.mem_Iio]
    obtain ⟨⟨h1, h2⟩, h3⟩ := hp
    rw [Nat.div_eq_iff hd] at h3
    unfold randMax at h1
    constructor
    · omega
    · omega
  · rintro ⟨b, j⟩ hp
    simp only [Finset.coe_product, Finset.coe_range, Set.mem_prod, Set.mem_Iio] at hp
    have hr : (k * D + j) % 2 ^ 31 < randMax := Nat.mod_lt _ (by norm_num)
    simp only [combine_eq hr]
    refine Prod.ext ?_ ?_ <;> simp only <;> omega
  · rintro ⟨r1, r2⟩ hp
    simp only [Finset.coe_filter, Finset.mem_product, Finset.mem_range, Set.mem_ofPred_eq] at hp
    obtain ⟨⟨h1, h2⟩, h3⟩ := hp
    have h2' := h2
    rw [Nat.div_eq_iff hd] at h3
    simp only
    rw [combine_eq h2'] at h3 ⊢
    unfold randMax at h1 h2
    refine Prod.ext ?_ ?_ <;> simp only <;> omega

/-- A die: each side for about a sixth of the pairs. -/
example : 5 < 6 ∧ 6 < 2 ^ 61 ∧ randDivisor 6 = 384307168202282325 := by decide

end Rep.Number
