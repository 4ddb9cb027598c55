import Verif.Ffi.Spec
import Mathlib.Tactic.Ring
import Mathlib.Tactic.Linarith

namespace Rep.Ffi

/-! ### bytes -/

theorem le_length (k n : Nat) : (le k n).length = k := by
  induction k generalizing n with
  | zero => rfl
  | succ k ih => simp [le, ih]

theorem unle_le (k n : Nat) : unle (le k n) = n % 256 ^ k := by
  induction k generalizing n with
  | zero => simp [le, unle, Nat.mod_one]
  | succ k ih =>
    rw [le, unle, ih, pow_succ, Nat.mul_comm (256 ^ k), Nat.mod_mul]

theorem store_outside (m : Mem) (p : Nat) (bs : List Nat) (x : Nat) (h : x < p ∨ p + bs.length ≤ x) :
    store m p bs x = m x := by
  induction bs generalizing m p with
  | nil => rfl
  | cons b bs ih =>
    rw [store, ih _ _ (by simp at h; omega)]
    have : x ≠ p := by simp at h; omega
    simp [this]

theorem load_store (m : Mem) (p : Nat) (bs : List Nat) : load (store m p bs) p bs.length = bs := by
  induction bs generalizing m p with
  | nil => rfl
  | cons b bs ih =>
    rw [List.length_cons, store, load, ih, store_outside _ _ _ _ (Or.inl (Nat.lt_succ_self p))]
    simp

theorem load_congr {m m' : Mem} {p n : Nat} (h : ∀ x, p ≤ x → x < p + n → m x = m' x) :
    load m p n = load m' p n := by
  induction n generalizing p with
  | zero => rfl
  | succ n ih =>
    rw [load, load, h p (Nat.le_refl _) (by omega), ih fun x h1 h2 => h x (by omega) (by omega)]

/-! ### numbers -/

theorem getSi_id {z : Int} (h : -2 ^ 63 ≤ z ∧ z < 2 ^ 63) : getSi z = z := by
  unfold getSi
  split
  · rw [Nat.mod_eq_of_lt (by omega)]; omega
  · rw [Nat.mod_eq_of_lt (by omega)]; omega

theorem toUnsigned_nonneg {w : Nat} {z : Int} (h : 0 ≤ z ∧ z < 2 ^ w) : toUnsigned w z = z.toNat := by
  unfold toUnsigned
  rw [Int.emod_eq_of_lt h.1 h.2]

theorem getUlong_id (E : Env) {z : Int} (h : 0 ≤ z ∧ z < 2 ^ 64) : getUlong E (.int z) = z.toNat := by
  unfold getUlong
  simp only
  split
  · exact toUnsigned_nonneg h
  · rw [Nat.mod_eq_of_lt (by omega)]; omega

/-- What is stored for a basic type represents what will be read. -/
theorem cbytes_of_readAs {E : Env} (hE : EnvOk E) {p : Prim} {v w : Value} (h : readAs E (2 ^ 63) p v = some w) :
    cbytes E p w = some (primBytes E v p) ∧ readAs E (2 ^ 63) p w = some w := by
  cases p with
  | void => simp only [readAs, Option.some.injEq] at h; subst h; exact ⟨rfl, rfl⟩
  | u64 =>
    cases v with
    | int z =>
      simp only [readAs] at h
      split at h
      · next hz =>
        cases h
        refine ⟨?_, ?_⟩
        · simp only [cbytes, primBytes, getLong]
          rw [if_pos ⟨hz.1, by omega⟩, getSi_id ⟨by omega, hz.2⟩, toUnsigned_nonneg ⟨hz.1, by omega⟩]
        · simp only [readAs]; rw [if_pos hz]
      · cases h
    | _ => simp [readAs, cbytes] at h
  | pointer =>
    cases v with
    | int z =>
      simp only [readAs, cbytes] at h
      split at h
      · next hz =>
        cases h
        refine ⟨?_, ?_⟩
        · simp only [cbytes, primBytes]
          rw [if_pos hz, getUlong_id E hz]
        · simp only [readAs, cbytes]; rw [if_pos hz]; rfl
      · cases h
    | str a =>
      simp only [readAs] at h
      split at h
      · next ha =>
        cases h
        have : (0 : Int) ≤ a ∧ (a : Int) < 2 ^ 64 := ⟨by omega, by exact_mod_cast ha⟩
        refine ⟨?_, ?_⟩
        · simp only [cbytes, primBytes]; rw [if_pos this]; rw [Int.toNat_natCast]
        · simp only [readAs, cbytes]; rw [if_pos this]; rfl
      · cases h
    | _ => simp [readAs, cbytes] at h
  | double =>
    cases v with
    | int z =>
      simp only [readAs, Option.some.injEq] at h
      subst h
      have := hE.ofInt z
      refine ⟨?_, ?_⟩
      · simp only [cbytes, primBytes, getFloat]; rw [if_pos this]
      · simp only [readAs, cbytes]; rw [if_pos this]; rfl
    | flo b =>
      simp only [readAs, cbytes] at h
      split at h
      · next hz =>
        cases h
        refine ⟨?_, ?_⟩
        · simp only [cbytes, primBytes, getFloat]; rw [if_pos hz]
        · simp only [readAs, cbytes]; rw [if_pos hz]; rfl
      · cases h
    | _ => simp [readAs, cbytes] at h
  | float =>
    cases v with
    | flo b =>
      simp only [readAs, cbytes] at h
      split at h
      · next hz =>
        cases h
        refine ⟨?_, ?_⟩
        · simp only [cbytes, primBytes, getFloat]; rw [if_pos hz]
        · simp only [readAs, cbytes]; rw [if_pos hz]; rfl
      · cases h
    | _ => simp [readAs, cbytes] at h
  | longdouble =>
    cases v with
    | flo b =>
      simp only [readAs, cbytes] at h
      split at h
      · next hz =>
        cases h
        refine ⟨?_, ?_⟩
        · simp only [cbytes, primBytes, getFloat]; rw [if_pos hz]
        · simp only [readAs, cbytes]; rw [if_pos hz]; rfl
      · cases h
    | _ => simp [readAs, cbytes] at h
  | u8 | u16 | u32 =>
    cases v with
    | int z =>
      simp only [readAs, cbytes] at h
      split at h
      · next hz =>
        cases h
        refine ⟨?_, ?_⟩
        · simp only [cbytes, primBytes, getLong]
          rw [if_pos hz, getSi_id ⟨by omega, by omega⟩, toUnsigned_nonneg hz]
        · simp only [readAs, cbytes]; rw [if_pos hz]; rfl
      · cases h
    | _ => simp [readAs, cbytes] at h
  | s8 | s16 | s32 | s64 =>
    cases v with
    | int z =>
      simp only [readAs, cbytes] at h
      split at h
      · next hz =>
        cases h
        refine ⟨?_, ?_⟩
        · simp only [cbytes, primBytes, getLong]
          rw [if_pos hz, getSi_id ⟨by omega, by omega⟩]; rfl
        · simp only [readAs, cbytes]; rw [if_pos hz]; rfl
      · cases h
    | _ => simp [readAs, cbytes] at h

/-- The number of bytes that are stored. -/
theorem primBytes_length (E : Env) (v : Value) (p : Prim) : (primBytes E v p).length = packed (.prim p) := by
  cases p
  case pointer => cases v <;> simp [primBytes, packed, primSize, le_length]
  all_goals simp [primBytes, packed, primSize, le_length]

theorem cbytes_length {E : Env} {p : Prim} {w : Value} {bs : List Nat} (h : cbytes E p w = some bs) :
    bs.length = packed (.prim p) := by
  unfold cbytes at h
  split at h <;>
  first
  | (split at h
     · cases h; simp [packed, primSize, le_length]
     · cases h)
  | (cases h; simp [packed, primSize, le_length])
  | cases h

theorem toSigned_mod (w : Nat) (hw : 0 < w) {z : Int} (h : -2 ^ (w - 1) ≤ z ∧ z < 2 ^ (w - 1)) :
    toSigned w (z % 2 ^ w).toNat = z := by
  obtain ⟨w, rfl⟩ : ∃ v, w = v + 1 := ⟨w - 1, by omega⟩
  simp only [Nat.add_sub_cancel] at h
  unfold toSigned
  simp only [Nat.add_sub_cancel]
  have hp : (0 : Int) < 2 ^ w := by positivity
  have e : (2 : Int) ^ (w + 1) = 2 * 2 ^ w := by ring
  have en : ((2 ^ w : Nat) : Int) = 2 ^ w := by push_cast; rfl
  rcases lt_or_ge z 0 with hz | hz
  · have : z % 2 ^ (w + 1) = z + 2 ^ (w + 1) := by
      rw [← Int.add_mul_emod_self_left z _ 1, mul_one, Int.emod_eq_of_lt] <;> omega
    rw [this, if_neg (by omega)]
    omega
  · rw [Int.emod_eq_of_lt hz (by omega), if_pos (by omega)]
    omega

/-- What is read from the bytes of a value. -/
theorem primValue_of_cbytes {E : Env} (hE : EnvOk E) {p : Prim} {w : Value} {bs : List Nat} {m : Mem} {a : Nat}
    (h : cbytes E p w = some bs) (hr : readAs E (2 ^ 63) p w = some w) (hl : load m a bs.length = bs) :
    primValue E m a p = (w, a + packed (.prim p)) := by
  have hlen := cbytes_length h
  rw [hlen] at hl
  cases p with
  | void =>
    simp only [readAs, Option.some.injEq] at hr
    subst hr; rfl
  | u8 | u16 | u32 | pointer =>
    cases w with
    | int z =>
      simp only [cbytes] at h
      split at h
      · next hz =>
        cases h
        simp only [packed, primSize] at hl
        simp only [primValue, packed, primSize]
        rw [hl, unle_le, Nat.mod_eq_of_lt (by omega)]
        simp only [Prod.mk.injEq, Value.int.injEq, and_true]
        omega
      · cases h
    | _ => simp [cbytes] at h
  | u64 =>
    cases w with
    | int z =>
      simp only [cbytes] at h
      simp only [readAs] at hr
      split at hr
      · next hz2 =>
        split at h
        · next hz =>
          cases h
          simp only [packed, primSize] at hl
          simp only [primValue, packed, primSize]
          rw [hl, unle_le, Nat.mod_eq_of_lt (by omega)]
          simp only [Prod.mk.injEq, Value.int.injEq, and_true]
          unfold toSigned
          rw [if_pos (by omega)]
          omega
        · cases h
      · cases hr
    | _ => simp [cbytes] at h
  | s8 | s16 | s32 | s64 =>
    cases w with
    | int z =>
      simp only [cbytes] at h
      split at h
      · next hz =>
        cases h
        simp only [packed, primSize] at hl
        simp only [primValue, packed, primSize]
        rw [hl, unle_le, Nat.mod_eq_of_lt (by omega)]
        simp only [Prod.mk.injEq, Value.int.injEq, and_true]
        exact toSigned_mod _ (by decide) hz
      · cases h
    | _ => simp [cbytes] at h
  | float =>
    cases w with
    | flo b =>
      simp only [cbytes] at h
      split at h
      · next hz =>
        cases h
        simp only [packed, primSize] at hl
        simp only [primValue, packed, primSize]
        rw [hl, unle_le, Nat.mod_eq_of_lt (by have := hE.narrow b; omega), hz]
      · cases h
    | _ => simp [cbytes] at h
  | double =>
    cases w with
    | flo b =>
      simp only [cbytes] at h
      split at h
      · next hz =>
        cases h
        simp only [packed, primSize] at hl
        simp only [primValue, packed, primSize]
        rw [hl, unle_le, Nat.mod_eq_of_lt (by omega)]
      · cases h
    | _ => simp [cbytes] at h
  | longdouble =>
    cases w with
    | flo b =>
      simp only [cbytes] at h
      split at h
      · next hz =>
        cases h
        simp only [packed, primSize] at hl
        simp only [primValue, packed, primSize]
        rw [hl, unle_le, Nat.mod_eq_of_lt (by have := hE.extend b; omega), hE.reduce b hz]
      · cases h
    | _ => simp [cbytes] at h

end Rep.Ffi
