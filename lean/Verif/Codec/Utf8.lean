/-
UTF-8 strings (src/utf8.c) and property C22.
-/
import Mathlib.Data.List.Basic
import Mathlib.Tactic.IntervalCases

namespace Rep.Utf8

/-! ### Model

A Lisp string is a list of bytes; in memory it is followed by one zero byte
(src/values.c:271 `rep_make_string`).  Reading any byte after that is undefined. -/

inductive Res (α : Type) where
  | ok (a : α)
  /-- `rep_signal_arg_error (value, index)`. -/
  | argError (index : Nat)
  /-- A read outside the string, or a copy of negative length. -/
  | undef
  deriving DecidableEq, Repr

/-- The byte at offset `i` of the string in memory. -/
def byteAt (s : List Nat) (i : Nat) : Option Nat := (s ++ [0])[i]?

/-- utf8.c:33 `utf8_skip_data`. -/
def skip (c : Nat) : Nat :=
  if c < 0xC0 then 1 else if c < 0xE0 then 2 else if c < 0xF0 then 3 else if c < 0xF8 then 4
  else if c < 0xFC then 5 else if c < 0xFE then 6 else 1

/-- utf8.c:45 `utf8_next_char`, on offsets. -/
def nextChar (s : List Nat) (p : Nat) : Option Nat := (byteAt s p).map fun c => p + skip c

theorem skip_pos (c : Nat) : 1 ≤ skip c := by
  unfold skip; repeat' split <;> try omega
  all_goals omega

/-- utf8.c:80 the loop of `utf8_strlen` for a negative MAX; `none` is a read outside
the string. -/
def strlenLoop (s : List Nat) (p : Nat) (len : Nat) : Option Nat :=
  match h : byteAt s p with
  | none => none
  | some 0 => some len
  | some c => strlenLoop s (p + skip c) (len + 1)
termination_by s.length + 1 - p
decreasing_by
  have h1 : p < s.length + 1 := by
    have := (List.getElem?_eq_some_iff.mp h).1
    simpa using this
  have := skip_pos c
  omega

/-- utf8.c:69 `utf8_strlen (p, -1)`. -/
def strlen (s : List Nat) : Option Nat := strlenLoop s 0 0

/-- utf8.c:163 `utf8_offset_to_pointer` for a non-negative offset. -/
def offsetToPointer (s : List Nat) (p : Nat) : Nat → Option Nat
  | 0 => some p
  | n + 1 => (nextChar s p).bind fun p => offsetToPointer s p n

/-- utf8.c:188 `utf8-string-length`. -/
def stringLength (s : List Nat) : Res Nat :=
  match strlen s with
  | some n => .ok n
  | none => .undef

/-- src/values.c:281 `rep_string_dupn`: copies `len` bytes from `p`, which must lie in
the string (with its zero byte). -/
def dupn (s : List Nat) (p : Nat) (len : Int) : Res (List Nat) :=
  if 0 ≤ len ∧ p + len ≤ s.length + 1 then .ok (((s ++ [0]).drop p).take len.toNat) else .undef

/-- utf8.c:199 `utf8-substring`, for a string of fewer than 2^31 characters; `stop`
is the optional argument END. -/
def substring (s : List Nat) (start : Int) (stop : Option Int) : Res (List Nat) :=
  match strlen s with
  | none => .undef
  | some utf8len =>
      if start > utf8len ∨ start < 0 then .argError 2
      else match offsetToPointer s 0 start.toNat with
        | none => .undef
        | some pstart =>
            match stop with
            | some stop =>
                if stop > utf8len ∨ stop < start then .argError 3
                else match offsetToPointer s 0 stop.toNat with
                  | none => .undef
                  | some pend => dupn s pstart ((pend : Int) - pstart)
            | none => dupn s pstart ((s.length : Int) - pstart)

/-! ### Specification: UTF-8 (RFC 3629) -/

/-- The encoding of a code point. -/
def encodeChar (c : Nat) : List Nat :=
  if c < 0x80 then [c]
  else if c < 0x800 then [0xC0 + c / 64, 0x80 + c % 64]
  else if c < 0x10000 then [0xE0 + c / 4096, 0x80 + c / 64 % 64, 0x80 + c % 64]
  else [0xF0 + c / 262144, 0x80 + c / 4096 % 64, 0x80 + c / 64 % 64, 0x80 + c % 64]

/-- The encoding of a text. -/
def encode (cs : List Nat) : List Nat := cs.flatMap encodeChar

/-- A text of Unicode code points other than NUL. -/
def Text (cs : List Nat) : Prop := ∀ c ∈ cs, 0 < c ∧ c < 0x110000

/-! ### Proofs -/

theorem encodeChar_head (c : Nat) (h0 : 0 < c) (h1 : c < 0x110000) :
    ∃ b rest, encodeChar c = b :: rest ∧ b ≠ 0 ∧ skip b = (encodeChar c).length := by
  unfold encodeChar
  split
  · exact ⟨_, _, rfl, by omega, by simp [skip]; omega⟩
  · split
    · refine ⟨_, _, rfl, by omega, ?_⟩
      unfold skip
      rw [if_neg (by omega), if_pos (by omega)]; rfl
    · split
      · refine ⟨_, _, rfl, by omega, ?_⟩
        unfold skip
        rw [if_neg (by omega), if_neg (by omega), if_pos (by omega)]; rfl
      · refine ⟨_, _, rfl, by omega, ?_⟩
        unfold skip
        rw [if_neg (by omega), if_neg (by omega), if_neg (by omega), if_pos (by omega)]; rfl

theorem byteAt_append (pre rest : List Nat) : byteAt (pre ++ rest) pre.length = (rest ++ [0])[0]? := by
  simp [byteAt]

theorem strlen_loop (cs : List Nat) (ht : Text cs) : ∀ (pre : List Nat) (len : Nat),
    strlenLoop (pre ++ encode cs) pre.length len = some (len + cs.length) := by
  induction cs with
  | nil =>
    intro pre len
    rw [strlenLoop]
    have := byteAt_append pre (encode [])
    simp only [encode, List.flatMap_nil, List.nil_append, List.getElem?_cons_zero] at this
    split
    · rename_i h; simp only [encode, List.flatMap_nil] at h; rw [this] at h; simp at h
    · simp
    · rename_i c hc h; simp only [encode, List.flatMap_nil] at h; rw [this] at h; simp at h; exact absurd h.symm hc
  | cons c cs ih =>
    intro pre len
    obtain ⟨b, rest, e, hb, hs⟩ := encodeChar_head c (ht c (by simp)).1 (ht c (by simp)).2
    have hcat : encode (c :: cs) = encodeChar c ++ encode cs := by simp [encode]
    have hat : byteAt (pre ++ encode (c :: cs)) pre.length = some b := by
      rw [byteAt_append, hcat, e]; simp
    rw [strlenLoop]
    split
    · rename_i h; rw [hat] at h; simp at h
    · rename_i h; rw [hat] at h; simp at h; omega
    · rename_i c' hc' h
      rw [hat] at h
      simp at h
      subst h
      have := ih (fun x hx => ht x (by simp [hx])) (pre ++ encodeChar c) (len + 1)
      rw [List.append_assoc, ← hcat, List.length_append, ← hs] at this
      rw [this]
      simp; omega

theorem offset_spec (cs : List Nat) (ht : Text cs) : ∀ (pre : List Nat) (n : Nat), n ≤ cs.length →
    offsetToPointer (pre ++ encode cs) pre.length n = some (pre.length + (encode (cs.take n)).length) := by
  induction cs with
  | nil => intro pre n hn; simp at hn; subst hn; simp [offsetToPointer, encode]
  | cons c cs ih =>
    intro pre n hn
    cases n with
    | zero => simp [offsetToPointer, encode]
    | succ n =>
      obtain ⟨b, rest, e, hb, hs⟩ := encodeChar_head c (ht c (by simp)).1 (ht c (by simp)).2
      have hcat : encode (c :: cs) = encodeChar c ++ encode cs := by simp [encode]
      have hat : byteAt (pre ++ encode (c :: cs)) pre.length = some b := by
        rw [byteAt_append, hcat, e]; simp
      have := ih (fun x hx => ht x (by simp [hx])) (pre ++ encodeChar c) n (by simpa using hn)
      rw [List.append_assoc, ← hcat, List.length_append, ← hs] at this
      simp only [offsetToPointer, nextChar, hat, Option.map_some, Option.bind_some]
      rw [this]
      simp [encode, hs]; omega

/-- **C22**: the length of a UTF-8 string is its number of characters. -/
theorem C22_length (cs : List Nat) (ht : Text cs) : stringLength (encode cs) = .ok cs.length := by
  have := strlen_loop cs ht [] 0
  simp only [List.nil_append, List.length_nil, Nat.zero_add] at this
  simp [stringLength, strlen, this]

theorem length_encode_take (cs : List Nat) (a b : Nat) (h : a ≤ b) :
    encode (cs.take b) = encode (cs.take a) ++ encode ((cs.drop a).take (b - a)) := by
  have : cs.take b = cs.take a ++ (cs.drop a).take (b - a) := by
    rw [List.take_drop, show a + (b - a) = b by omega]
    conv_lhs => rw [← List.take_append_drop a (cs.take b)]
    rw [List.take_take, Nat.min_eq_left h]
  rw [this]; simp [encode]

theorem dupn_encode (cs : List Nat) (a b : Nat) (h : a ≤ b) :
    dupn (encode cs) (encode (cs.take a)).length
      (((encode (cs.take b)).length : Int) - (encode (cs.take a)).length) =
      .ok (encode ((cs.drop a).take (b - a))) := by
  have e1 := length_encode_take cs a b h
  have e2 : encode cs = encode (cs.take b) ++ encode (cs.drop b) := by
    conv_lhs => rw [← List.take_append_drop b cs]
    simp only [encode, List.flatMap_append]
  have hl := congrArg List.length e1
  have hl2 := congrArg List.length e2
  rw [List.length_append] at hl hl2
  unfold dupn
  rw [if_pos (by omega)]
  congr 1
  rw [e2, e1, List.append_assoc, List.append_assoc, List.drop_left' rfl]
  rw [List.take_left']
  simp

/-- **C22**: `utf8-substring` returns exactly the characters from START up to END, and
signals an error exactly when the indices are out of range. -/
theorem C22_substring (cs : List Nat) (ht : Text cs) (start stop : Int) :
    substring (encode cs) start (some stop) =
      (if start < 0 ∨ start > cs.length then .argError 2
       else if stop < start ∨ stop > cs.length then .argError 3
       else .ok (encode ((cs.drop start.toNat).take (stop.toNat - start.toNat)))) := by
  have hl := strlen_loop cs ht [] 0
  simp only [List.nil_append, List.length_nil, Nat.zero_add] at hl
  unfold substring
  rw [strlen, hl]
  simp only
  by_cases h1 : start < 0 ∨ start > cs.length
  · rw [if_pos (by omega), if_pos h1]
  · rw [if_neg (by omega), if_neg h1]
    have ho := offset_spec cs ht [] start.toNat (by omega)
    simp only [List.nil_append, List.length_nil, Nat.zero_add] at ho
    rw [ho]
    simp only
    by_cases h2 : stop < start ∨ stop > cs.length
    · rw [if_pos (by omega), if_pos h2]
    · rw [if_neg (by omega), if_neg h2]
      have ho := offset_spec cs ht [] stop.toNat (by omega)
      simp only [List.nil_append, List.length_nil, Nat.zero_add] at ho
      rw [ho]
      exact dupn_encode cs _ _ (by omega)

/-- **C22**: `utf8-substring` without END returns the characters from START on. -/
theorem C22_substring_rest (cs : List Nat) (ht : Text cs) (start : Int) :
    substring (encode cs) start none =
      (if start < 0 ∨ start > cs.length then .argError 2 else .ok (encode (cs.drop start.toNat))) := by
  have hl := strlen_loop cs ht [] 0
  simp only [List.nil_append, List.length_nil, Nat.zero_add] at hl
  unfold substring
  rw [strlen, hl]
  simp only
  by_cases h1 : start < 0 ∨ start > cs.length
  · rw [if_pos (by omega), if_pos h1]
  · rw [if_neg (by omega), if_neg h1]
    have ho := offset_spec cs ht [] start.toNat (by omega)
    simp only [List.nil_append, List.length_nil, Nat.zero_add] at ho
    rw [ho]
    simp only
    have := dupn_encode cs start.toNat cs.length (by omega)
    rw [List.take_length] at this
    rw [this, List.take_of_length_le (by simp)]

/-- **C22**: cutting a string and concatenating the pieces gives it back. -/
theorem C22_split (cs : List Nat) (ht : Text cs) (k : Nat) (hk : k ≤ cs.length) :
    ∃ a b, substring (encode cs) 0 (some k) = .ok a ∧ substring (encode cs) k none = .ok b ∧ a ++ b = encode cs := by
  refine ⟨encode (cs.take k), encode (cs.drop k), ?_, ?_, ?_⟩
  · rw [C22_substring cs ht, if_neg (by omega), if_neg (by omega)]; simp
  · rw [C22_substring_rest cs ht, if_neg (by omega)]; simp
  · simp [encode, ← List.flatMap_append]

/-- "é€x" is a text; its second character is the euro sign. -/
example : Text [0xE9, 0x20AC, 0x78] ∧ encode [0xE9, 0x20AC, 0x78] = [0xC3, 0xA9, 0xE2, 0x82, 0xAC, 0x78] ∧
    substring [0xC3, 0xA9, 0xE2, 0x82, 0xAC, 0x78] 1 (some 2) = .ok [0xE2, 0x82, 0xAC] := by
  have h : Text [0xE9, 0x20AC, 0x78] := by simp [Text]
  exact ⟨h, by decide, by
    have := C22_substring _ h 1 2
    simpa [encode, encodeChar] using this⟩

/-- **C22 is false of the code for strings with a zero byte**: the length of "a\0b"
is 1. -/
theorem C22_length_violated : stringLength (encode [97, 0, 98]) = .ok 1 := by
  have e : encode [97, 0, 98] = [97, 0, 98] := by decide
  have h : strlenLoop [97, 0, 98] 0 0 = some 1 := by
    rw [strlenLoop]
    simp only [byteAt, List.cons_append, List.getElem?_cons_zero]
    rw [strlenLoop]
    simp only [skip, byteAt]
    split
    · rename_i h; simp at h
    · simp
    · rename_i h hh
      simp at hh
      exact absurd hh.symm h
  rw [e, stringLength, strlen, h]

/-- **C22 is false of the code for malformed strings**: the length of a string that
ends in the middle of a character is computed from bytes outside the string. -/
theorem C22_malformed_violated : stringLength [0xF0] = .undef := by
  have h : strlenLoop [0xF0] 0 0 = none := by
    rw [strlenLoop]
    simp only [byteAt, List.cons_append, List.getElem?_cons_zero]
    rw [strlenLoop]
    simp [byteAt, skip]
  rw [stringLength, strlen, h]

end Rep.Utf8
