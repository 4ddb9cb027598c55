/-
Base64 (lisp/rep/util/base64.jl) and property C19.
-/
import Mathlib.Data.List.Basic
import Mathlib.Data.Nat.Bitwise
import Mathlib.Tactic.Ring

namespace Rep.Base64

/-! ### Model

Streams are lists of bytes.  `read-char` gives the next byte as a number 0..255, or
nil at the end; `write` of a number appends that byte.  `lsh` is `ash`
(lisp/rep/data/math.jl:72); every number here stays below 2^24, so the fixnum
operations are exact (C06) and are written with `Nat` shifts. -/

/-- base64.jl:36 `mime-base64-alphabet`. -/
def alphabet : List Nat :=
  "ABCDEFGHIJKLMNOPQRSTUVWXYZabcdefghijklmnopqrstuvwxyz0123456789+/".toList.map Char.toNat

/-- base64.jl:52 `(aref mime-base64-alphabet i)`; `none` is an index error. -/
def aref (i : Nat) : Option Nat := alphabet[i]?

/-- base64.jl:43 the loop of `base64-encode`; the value is what is written from here
on, `none` an error.  `col` is the column. -/
def encode.loop (col : Nat) : List Nat → Option (List Nat)
  | reg1 :: reg2 :: reg3 :: rest => do
      let reg := (reg1 <<< 16) ||| (reg2 <<< 8) ||| reg3
      let c1 ← aref (reg >>> 18)
      let c2 ← aref ((reg >>> 12) &&& 0o77)
      let c3 ← aref ((reg >>> 6) &&& 0o77)
      let c4 ← aref (reg &&& 0o77)
      let col := col + 4
      if col ≥ 76 then
        let out ← encode.loop 0 rest
        some (c1 :: c2 :: c3 :: c4 :: 10 :: out)
      else
        let out ← encode.loop col rest
        some (c1 :: c2 :: c3 :: c4 :: out)
  | [reg1, reg2] => do
      let reg := ((reg1 <<< 8) ||| reg2) <<< 2
      let c1 ← aref (reg >>> 12)
      let c2 ← aref ((reg >>> 6) &&& 0o77)
      let c3 ← aref (reg &&& 0o77)
      some [c1, c2, c3, 61]
  | [reg1] => do
      let reg := reg1 <<< 4
      let c1 ← aref (reg >>> 6)
      let c2 ← aref (reg &&& 0o77)
      some [c1, c2, 61, 61]
  | [] => some []

/-- base64.jl:39 `base64-encode`: the loop, then a newline. -/
def encode (input : List Nat) : Option (List Nat) := do
  let out ← encode.loop 0 input
  some (out ++ [10])

/-- base64.jl:89-100: the value of a character, or nil. -/
def charValue (char : Nat) : Option Nat :=
  if char ≥ 65 ∧ char ≤ 90 then some (char - 65)
  else if char ≥ 97 ∧ char ≤ 122 then some (26 + (char - 97))
  else if char ≥ 48 ∧ char ≤ 57 then some (52 + (char - 48))
  else if char = 43 then some 62
  else if char = 47 then some 63
  else none

/-- base64.jl:104-108 the inner loop: the bytes written, and the new `reg`, `bits`. -/
def drain (reg bits : Nat) : List Nat × Nat × Nat :=
  if bits ≥ 8 then
    let char := reg >>> (bits - 8)
    let reg := reg ^^^ (char <<< (bits - 8))
    let r := drain reg (bits - 8)
    (char :: r.1, r.2)
  else ([], reg, bits)
termination_by bits

/-- base64.jl:88 the loop of `base64-decode`. -/
def decode.loop (reg bits : Nat) : List Nat → List Nat
  | [] => []
  | char :: rest =>
      let rb := match charValue char with
        | some v => ((reg <<< 6) ||| v, bits + 6)
        | none => (reg, bits)
      let d := drain rb.1 rb.2
      d.1 ++ decode.loop d.2.1 d.2.2 rest

/-- base64.jl:84 `base64-decode`. -/
def decode (input : List Nat) : List Nat := decode.loop 0 0 input

/-! ### Specification: base64 in terms of bit strings -/

/-- The `n` low bits of `v`, most significant first. -/
def bits (n v : Nat) : List Bool := (List.range n).map fun i => v.testBit (n - 1 - i)

/-- The number a bit string denotes. -/
def ofBits (l : List Bool) : Nat := l.foldl (fun a b => 2 * a + b.toNat) 0

/-- A bit string cut into whole bytes; an incomplete last byte is dropped. -/
def toBytes (l : List Bool) : List Nat :=
  if 8 ≤ l.length then ofBits (l.take 8) :: toBytes (l.drop 8) else []
termination_by l.length
decreasing_by simp; omega

/-- The position of a character in the base64 alphabet. -/
def sextet (c : Nat) : Option Nat := alphabet.findIdx? (· = c)

/-- The bit string a base64 text carries: six bits for each character of the
alphabet, nothing for any other character. -/
def payload (cs : List Nat) : List Bool := (cs.filterMap sextet).flatMap (bits 6)

/-- The bits of a byte string. -/
def byteBits (bs : List Nat) : List Bool := bs.flatMap (bits 8)

/-! ### Proofs -/

theorem length_bits (n v : Nat) : (bits n v).length = n := by simp [bits]

theorem getElem_bits (n v i : Nat) (h : i < (bits n v).length) : (bits n v)[i] = v.testBit (n - 1 - i) := by
  simp [bits]

theorem bits_add (a b x : Nat) : bits (a + b) x = bits a (x >>> b) ++ bits b x := by
  apply List.ext_getElem
  · simp [length_bits]
  · intro i h1 h2
    rw [getElem_bits, List.getElem_append]
    rw [length_bits] at h1
    split
    · rename_i h
      rw [length_bits] at h
      rw [getElem_bits, Nat.testBit_shiftRight]
      congr 1; omega
    · rename_i h
      rw [length_bits] at h
      rw [getElem_bits, length_bits]
      congr 1; omega

theorem bits_congr {n x y : Nat} (h : ∀ i, i < n → x.testBit i = y.testBit i) : bits n x = bits n y := by
  apply List.ext_getElem
  · simp [length_bits]
  · intro i h1 h2
    rw [length_bits] at h1
    rw [getElem_bits, getElem_bits]
    exact h _ (by omega)

theorem bits_succ (n x : Nat) : bits (n + 1) x = x.testBit n :: bits n x := by
  rw [Nat.add_comm, bits_add]
  simp [bits]

theorem foldl_bits (n x a : Nat) :
    (bits n x).foldl (fun a b => 2 * a + b.toNat) a = a * 2 ^ n + x % 2 ^ n := by
  induction n generalizing a with
  | zero => simp [bits, Nat.mod_one]
  | succ n ih =>
    rw [bits_succ, List.foldl_cons, ih, Nat.pow_succ]
    have h : x % (2 ^ n * 2) = (x.testBit n).toNat * 2 ^ n + x % 2 ^ n := by
      rw [Nat.mod_mul, Nat.testBit_eq_decide_div_mod_eq]
      have : x / 2 ^ n % 2 = 0 ∨ x / 2 ^ n % 2 = 1 := by omega
      rcases this with h | h <;> simp [h] <;> omega
    rw [h]; ring

theorem ofBits_bits (n x : Nat) : ofBits (bits n x) = x % 2 ^ n := by
  rw [ofBits, foldl_bits]; simp

theorem toBytes_cons (c : Nat) (hc : c < 256) (l : List Bool) : toBytes (bits 8 c ++ l) = c :: toBytes l := by
  have h8 : (bits 8 c).length = 8 := length_bits 8 c
  rw [toBytes, if_pos (by simp [h8])]
  rw [List.take_left' h8, List.drop_left' h8, ofBits_bits, Nat.mod_eq_of_lt (show c < 2 ^ 8 from hc)]

theorem toBytes_short (l : List Bool) (h : l.length < 8) : toBytes l = [] := by
  rw [toBytes, if_neg (by omega)]

theorem toBytes_byteBits (bs : List Nat) (hb : ∀ b ∈ bs, b < 256) (l : List Bool) (hl : l.length < 8) :
    toBytes (byteBits bs ++ l) = bs := by
  induction bs with
  | nil => simpa [byteBits] using toBytes_short l hl
  | cons b bs ih =>
    have := ih (fun x hx => hb x (by simp [hx]))
    simp only [byteBits, List.flatMap_cons, List.append_assoc] at *
    rw [toBytes_cons b (hb b (by simp)), this]

theorem charValue_eq (c : Nat) : charValue c = sextet c := by
  by_cases h : c < 128
  · have : ∀ c, c < 128 → charValue c = sextet c := by decide +kernel
    exact this c h
  · have h1 : charValue c = none := by
      unfold charValue
      simp only [ge_iff_le]
      rw [if_neg (by omega), if_neg (by omega), if_neg (by omega), if_neg (by omega), if_neg (by omega)]
    have h2 : ∀ x ∈ alphabet, x < 128 := by decide +kernel
    rw [h1, eq_comm, sextet, List.findIdx?_eq_none_iff]
    intro x hx
    have := h2 x hx
    simp; omega

theorem sextet_lt {c v : Nat} (h : sextet c = some v) : v < 64 := by
  have : alphabet.length = 64 := by decide +kernel
  obtain ⟨h2, _⟩ := List.findIdx?_eq_some_iff_getElem.mp h
  omega

theorem drain_spec (reg n : Nat) (hr : reg < 2 ^ n) :
    ∃ cs r m, drain reg n = (cs, r, m) ∧ m < 8 ∧ r < 2 ^ m ∧ (∀ c ∈ cs, c < 256) ∧
      bits n reg = byteBits cs ++ bits m r := by
  induction n using Nat.strongRecOn generalizing reg with
  | _ n ih =>
    unfold drain
    by_cases h : n ≥ 8
    · rw [if_pos h]
      simp only
      have hrb : ∀ i, (reg ^^^ reg >>> (n - 8) <<< (n - 8)).testBit i =
          (decide (i < n - 8) && reg.testBit i) := by
        intro i
        rw [Nat.testBit_xor, Nat.testBit_shiftLeft, Nat.testBit_shiftRight]
        by_cases hi : n - 8 ≤ i
        · have : n - 8 + (i - (n - 8)) = i := by omega
          simp [hi, this]
        · simp [hi, Nat.lt_of_not_le hi]
      have hlt : reg ^^^ reg >>> (n - 8) <<< (n - 8) < 2 ^ (n - 8) := by
        apply Nat.lt_pow_two_of_testBit
        intro i hi
        rw [hrb]; simp; omega
      obtain ⟨cs, r, m, e, hm, hr', hc, hb⟩ := ih (n - 8) (by omega) _ hlt
      rw [e]
      refine ⟨_, _, _, rfl, hm, hr', ?_, ?_⟩
      · intro c hc'
        rcases List.mem_cons.mp hc' with rfl | hc'
        · rw [Nat.shiftRight_eq_div_pow]
          apply Nat.div_lt_of_lt_mul
          have : 2 ^ n = 2 ^ (n - 8) * 256 := by
            rw [show (256 : Nat) = 2 ^ 8 from rfl, ← Nat.pow_add]; congr 1; omega
          omega
        · exact hc c hc'
      · have e1 : n = 8 + (n - 8) := by omega
        rw [e1, bits_add, ← e1]
        simp only [byteBits, List.flatMap_cons, List.append_assoc] at *
        rw [← hb]
        congr 1
        apply bits_congr
        intro i hi
        rw [hrb]; simp [hi]
    · rw [if_neg h]
      exact ⟨_, _, _, rfl, by omega, hr, by simp, by simp [byteBits]⟩

theorem toBytes_append (cs : List Nat) (hc : ∀ c ∈ cs, c < 256) (l : List Bool) :
    toBytes (byteBits cs ++ l) = cs ++ toBytes l := by
  induction cs with
  | nil => simp [byteBits]
  | cons b bs ih =>
    have := ih (fun x hx => hc x (by simp [hx]))
    simp only [byteBits, List.flatMap_cons, List.append_assoc, List.cons_append] at *
    rw [toBytes_cons b (hc b (by simp)), this]

theorem decode_loop (cs : List Nat) (reg n : Nat) (hn : n < 8) (hr : reg < 2 ^ n) :
    decode.loop reg n cs = toBytes (bits n reg ++ payload cs) := by
  induction cs generalizing reg n with
  | nil =>
    simp only [decode.loop, payload, List.filterMap_nil, List.flatMap_nil, List.append_nil]
    rw [toBytes_short _ (by rw [length_bits]; omega)]
  | cons c cs ih =>
    rw [decode.loop]
    rw [charValue_eq]
    cases hv : sextet c with
    | none =>
      simp only
      obtain ⟨ds, r, m, e, hm, hr', hc, hb⟩ := drain_spec reg n hr
      rw [e]
      simp only
      rw [ih _ _ hm hr', ← toBytes_append ds hc, ← List.append_assoc, ← hb]
      simp [payload, List.filterMap_cons, hv]
    | some v =>
      simp only
      have hv64 := sextet_lt hv
      have h6 : (reg <<< 6 ||| v) >>> 6 = reg := by
        rw [Nat.shiftRight_or_distrib, Nat.shiftLeft_shiftRight, Nat.shiftRight_eq_div_pow v,
          Nat.div_eq_of_lt (by simpa using hv64)]
        simp
      have hlt : reg <<< 6 ||| v < 2 ^ (n + 6) := by
        apply Nat.or_lt_two_pow
        · rw [Nat.shiftLeft_eq, Nat.pow_add]
          exact Nat.mul_lt_mul_of_pos_right hr (by decide)
        · calc v < 2 ^ 6 := by simpa using hv64
            _ ≤ 2 ^ (n + 6) := Nat.pow_le_pow_right (by decide) (by omega)
      have hbits : bits (n + 6) (reg <<< 6 ||| v) = bits n reg ++ bits 6 v := by
        rw [bits_add, h6]
        congr 1
        apply bits_congr
        intro i hi
        rw [Nat.testBit_or, Nat.testBit_shiftLeft]
        simp; omega
      obtain ⟨ds, r, m, e, hm, hr', hc, hb⟩ := drain_spec _ _ hlt
      rw [e]
      simp only
      rw [ih _ _ hm hr', ← toBytes_append ds hc, ← List.append_assoc, ← hb, hbits]
      simp [payload, List.filterMap_cons, hv]

/-- **C19**: whatever its input, `base64-decode` writes the whole bytes of the bit
string that the base64 characters of the input carry; other characters (newlines,
padding) are ignored. -/
theorem C19_decode (cs : List Nat) : decode cs = toBytes (payload cs) := by
  rw [decode, decode_loop cs 0 0 (by decide) (by decide)]
  simp [bits]

theorem aref_spec (i : Nat) (h : i < 64) : ∃ c, aref i = some c ∧ sextet c = some i ∧ c ∈ alphabet := by
  have : ∀ i, i < 64 → ∃ c ∈ alphabet, aref i = some c ∧ sextet c = some i := by decide +kernel
  obtain ⟨c, h1, h2, h3⟩ := this i h
  exact ⟨c, h2, h3, h1⟩

theorem and63 (x : Nat) : x &&& 0o77 = x % 64 := Nat.and_two_pow_sub_one_eq_mod x 6

theorem bits_mod (n x : Nat) : bits n (x % 2 ^ n) = bits n x :=
  bits_congr fun i hi => by rw [Nat.testBit_mod_two_pow]; simp [hi]

theorem bits_and63 (x : Nat) : bits 6 (x &&& 0o77) = bits 6 x := by rw [and63]; exact bits_mod 6 x

theorem payload_cons {c v : Nat} (h : sextet c = some v) (l : List Nat) :
    payload (c :: l) = bits 6 v ++ payload l := by simp [payload, List.filterMap_cons, h]

theorem payload_skip {c : Nat} (h : sextet c = none) (l : List Nat) :
    payload (c :: l) = payload l := by simp [payload, List.filterMap_cons, h]

theorem payload_append (a b : List Nat) : payload (a ++ b) = payload a ++ payload b := by
  simp [payload]

theorem sextet_pad : sextet 61 = none := by decide +kernel
theorem sextet_nl : sextet 10 = none := by decide +kernel

/-- What may be on a line. -/
def LineChar (c : Nat) : Prop := c ∈ alphabet ∨ c = 61

theorem or_shift_bits (k x y : Nat) (hy : y < 2 ^ k) (n : Nat) :
    bits (n + k) (x <<< k ||| y) = bits n x ++ bits k y := by
  rw [bits_add]
  congr 1
  · rw [Nat.shiftRight_or_distrib, Nat.shiftLeft_shiftRight, Nat.shiftRight_eq_div_pow y,
      Nat.div_eq_of_lt hy]
    simp
  · apply bits_congr
    intro i hi
    rw [Nat.testBit_or, Nat.testBit_shiftLeft]
    simp; omega

/-- The state of the output after the loop: complete lines, then an unfinished one. -/
structure Shape (col : Nat) (input out : List Nat) : Prop where
  payload : ∃ pad, payload out = byteBits input ++ pad ∧ pad.length < 6 ∧ ∀ b ∈ pad, b = false
  lines : ∃ (first : List Nat) (rest : List (List Nat)) , (first :: rest).flatMap (· ++ [10]) = out ++ [10] ∧
    col + first.length ≤ 76 ∧ (∀ l ∈ rest, l.length ≤ 76) ∧ (∀ l ∈ first :: rest, (∀ c ∈ l, LineChar c) ∧ l.length % 4 = 0)

theorem encode_loop (n : Nat) : ∀ (input : List Nat) (col : Nat), input.length ≤ n →
    (∀ b ∈ input, b < 256) → col + 4 ≤ 76 → col % 4 = 0 →
    ∃ out, encode.loop col input = some out ∧ Shape col input out := by
  induction n with
  | zero =>
    intro input col hl hb hcol hc4
    have : input = [] := List.length_eq_zero_iff.mp (by omega)
    subst this
    refine ⟨[], by simp [encode.loop], ⟨[], by simp [payload, byteBits], by simp, by simp⟩,
      [], [], by simp, by simp; omega, by simp, by simp⟩
  | succ n ih =>
    intro input col hl hb hcol hc4
    match input, hl, hb with
    | [], _, _ =>
      refine ⟨[], by simp [encode.loop], ⟨[], by simp [payload, byteBits], by simp, by simp⟩,
        [], [], by simp, by simp; omega, by simp, by simp⟩
    | [b1], _, hb =>
      have h1 : b1 < 256 := hb b1 (by simp)
      obtain ⟨c1, e1, s1, m1⟩ := aref_spec ((b1 <<< 4) >>> 6) (by
        rw [Nat.shiftLeft_eq, Nat.shiftRight_eq_div_pow]; omega)
      obtain ⟨c2, e2, s2, m2⟩ := aref_spec ((b1 <<< 4) &&& 0o77) (by rw [and63]; omega)
      refine ⟨[c1, c2, 61, 61], by simp [encode.loop, e1, e2], ⟨bits 4 0, ?_, by simp [length_bits], ?_⟩, ?_⟩
      · rw [payload_cons s1, payload_cons s2, payload_skip sextet_pad, payload_skip sextet_pad, bits_and63,
          ← List.append_assoc, ← bits_add]
        have := or_shift_bits 4 b1 0 (by decide) 8
        simp only [Nat.or_zero] at this
        simp [byteBits, payload, this]
      · decide
      · refine ⟨[c1, c2, 61, 61], [], by simp, by simp; omega, by simp, ?_⟩
        intro l hl
        simp only [List.mem_singleton] at hl
        subst hl
        exact ⟨by simp [LineChar, m1, m2], by simp⟩
    | [b1, b2], _, hb =>
      have h1 : b1 < 256 := hb b1 (by simp)
      have h2 : b2 < 256 := hb b2 (by simp)
      have hlt : (b1 <<< 8 ||| b2) <<< 2 < 2 ^ 18 := by
        rw [Nat.shiftLeft_eq]
        have : b1 <<< 8 ||| b2 < 2 ^ 16 := Nat.or_lt_two_pow (by rw [Nat.shiftLeft_eq]; omega) (by omega)
        omega
      obtain ⟨c1, e1, s1, m1⟩ := aref_spec (((b1 <<< 8 ||| b2) <<< 2) >>> 12) (by
        rw [Nat.shiftRight_eq_div_pow]; omega)
      obtain ⟨c2, e2, s2, m2⟩ := aref_spec ((((b1 <<< 8 ||| b2) <<< 2) >>> 6) &&& 0o77) (by rw [and63]; omega)
      obtain ⟨c3, e3, s3, m3⟩ := aref_spec (((b1 <<< 8 ||| b2) <<< 2) &&& 0o77) (by rw [and63]; omega)
      refine ⟨[c1, c2, c3, 61], by simp [encode.loop, e1, e2, e3], ⟨bits 2 0, ?_, by simp [length_bits], ?_⟩, ?_⟩
      · rw [payload_cons s1, payload_cons s2, payload_cons s3, payload_skip sextet_pad, bits_and63, bits_and63]
        have := or_shift_bits 2 (b1 <<< 8 ||| b2) 0 (by decide) 16
        rw [or_shift_bits 8 b1 b2 h2 8] at this
        simp only [Nat.or_zero] at this
        have e : bits (16 + 2) ((b1 <<< 8 ||| b2) <<< 2) =
          bits 6 (((b1 <<< 8 ||| b2) <<< 2) >>> 12) ++ (bits 6 (((b1 <<< 8 ||| b2) <<< 2) >>> 6) ++
            bits 6 ((b1 <<< 8 ||| b2) <<< 2)) := by rw [← bits_add, ← bits_add]
        rw [e] at this
        rw [← List.append_assoc, List.append_assoc _ _ (bits 6 ((b1 <<< 8 ||| b2) <<< 2) ++ _)] at *
        simp [byteBits, payload] at this ⊢
        rw [this]
      · decide
      · refine ⟨[c1, c2, c3, 61], [], by simp, by simp; omega, by simp, ?_⟩
        intro l hl
        simp only [List.mem_singleton] at hl
        subst hl
        exact ⟨by simp [LineChar, m1, m2, m3], by simp⟩
    | b1 :: b2 :: b3 :: rest, hl, hb =>
      have h1 : b1 < 256 := hb b1 (by simp)
      have h2 : b2 < 256 := hb b2 (by simp)
      have h3 : b3 < 256 := hb b3 (by simp)
      have hrest : ∀ b ∈ rest, b < 256 := fun b hb' => hb b (by simp [hb'])
      have hlen : rest.length ≤ n := by simp at hl; omega
      have hreg : b1 <<< 16 ||| b2 <<< 8 ||| b3 = (b1 <<< 8 ||| b2) <<< 8 ||| b3 := by
        rw [Nat.shiftLeft_or_distrib, ← Nat.shiftLeft_add]
      have hlt : (b1 <<< 8 ||| b2) <<< 8 ||| b3 < 2 ^ 24 := by
        apply Nat.or_lt_two_pow
        · rw [Nat.shiftLeft_eq]
          have : b1 <<< 8 ||| b2 < 2 ^ 16 := Nat.or_lt_two_pow (by rw [Nat.shiftLeft_eq]; omega) (by omega)
          omega
        · omega
      have hbits := or_shift_bits 8 (b1 <<< 8 ||| b2) b3 h3 16
      rw [or_shift_bits 8 b1 b2 h2 8] at hbits
      rw [encode.loop]
      simp only [hreg]
      generalize (b1 <<< 8 ||| b2) <<< 8 ||| b3 = reg at *
      obtain ⟨c1, e1, s1, m1⟩ := aref_spec (reg >>> 18) (by
        rw [Nat.shiftRight_eq_div_pow]; omega)
      obtain ⟨c2, e2, s2, m2⟩ := aref_spec ((reg >>> 12) &&& 0o77) (by rw [and63]; omega)
      obtain ⟨c3, e3, s3, m3⟩ := aref_spec ((reg >>> 6) &&& 0o77) (by rw [and63]; omega)
      obtain ⟨c4, e4, s4, m4⟩ := aref_spec (reg &&& 0o77) (by rw [and63]; omega)
      simp only [e1, e2, e3, e4]
      have e : bits (16 + 8) reg = bits 6 (reg >>> 18) ++ (bits 6 (reg >>> 12) ++ (bits 6 (reg >>> 6) ++
            bits 6 reg)) := by rw [← bits_add, ← bits_add, ← bits_add]
      rw [hbits] at e
      have hpay : ∀ l, payload (c1 :: c2 :: c3 :: c4 :: l) = bits 8 b1 ++ (bits 8 b2 ++ (bits 8 b3 ++ payload l)) := by
        intro l
        rw [payload_cons s1, payload_cons s2, payload_cons s3, payload_cons s4, bits_and63, bits_and63, bits_and63]
        have := congrArg (· ++ payload l) e
        simp only [List.append_assoc] at this
        rw [this]
      by_cases hc : col + 4 ≥ 76
      · obtain ⟨out, eo, ⟨pad, hp, hpl, hpz⟩, first, lrest, hj, hf, hr, hall⟩ := ih rest 0 hlen hrest (by decide) rfl
        refine ⟨_, by simp only [if_pos hc, eo]; rfl, ⟨pad, ?_, hpl, hpz⟩, [c1, c2, c3, c4], first :: lrest, ?_, ?_, ?_, ?_⟩
        · rw [hpay, payload_skip sextet_nl, hp]; simp [byteBits]
        · simpa using hj
        · simp; omega
        · intro l hl'
          rcases List.mem_cons.mp hl' with rfl | hl'
          · omega
          · exact hr l hl'
        · intro l hl'
          rcases List.mem_cons.mp hl' with rfl | hl'
          · exact ⟨by simp [LineChar, m1, m2, m3, m4], by simp⟩
          · exact hall l hl'
      · obtain ⟨out, eo, ⟨pad, hp, hpl, hpz⟩, first, lrest, hj, hf, hr, hall⟩ := ih rest (col + 4) hlen hrest (by omega) (by omega)
        refine ⟨_, by simp only [if_neg hc, eo]; rfl, ⟨pad, ?_, hpl, hpz⟩, c1 :: c2 :: c3 :: c4 :: first, lrest, ?_, ?_, ?_, ?_⟩
        · rw [hpay, hp]; simp [byteBits]
        · simpa using hj
        · simp; omega
        · exact hr
        · intro l hl'
          rcases List.mem_cons.mp hl' with rfl | hl'
          · have := hall first (by simp)
            refine ⟨?_, by simp; omega⟩
            intro c hc'
            simp only [List.mem_cons] at hc'
            rcases hc' with rfl | rfl | rfl | rfl | hc'
            · exact .inl m1
            · exact .inl m2
            · exact .inl m3
            · exact .inl m4
            · exact this.1 c hc'
          · exact hall l (by simp [hl'])

/-- **C19**: `base64-encode` succeeds on every byte string; its output consists of
complete lines of at most 76 characters, each a whole number of four-character
groups over the alphabet and `=`; and it carries the bits of the input followed by
fewer than six zero bits. -/
theorem C19_encode (bs : List Nat) (hb : ∀ b ∈ bs, b < 256) :
    ∃ out, encode bs = some out ∧
      (∃ lines : List (List Nat), out = lines.flatMap (· ++ [10]) ∧
        ∀ l ∈ lines, l.length ≤ 76 ∧ l.length % 4 = 0 ∧ ∀ c ∈ l, c ∈ alphabet ∨ c = 61) ∧
      ∃ pad, payload out = byteBits bs ++ pad ∧ pad.length < 6 ∧ ∀ b ∈ pad, b = false := by
  obtain ⟨out, eo, ⟨pad, hp, hpl, hpz⟩, first, lrest, hj, hf, hr, hall⟩ :=
    encode_loop bs.length bs 0 le_rfl hb (by decide) rfl
  refine ⟨out ++ [10], by simp [encode, eo], ⟨first :: lrest, hj.symm, ?_⟩, pad, ?_, hpl, hpz⟩
  · intro l hl
    refine ⟨?_, (hall l hl).2, (hall l hl).1⟩
    rcases List.mem_cons.mp hl with rfl | hl
    · omega
    · exact hr l hl
  · rw [payload_append, hp]
    simp [payload, sextet_nl]

/-- **C19**: decoding the output of the encoder yields the original bytes. -/
theorem C19_round_trip (bs : List Nat) (hb : ∀ b ∈ bs, b < 256) :
    ∃ out, encode bs = some out ∧ decode out = bs := by
  obtain ⟨out, eo, _, pad, hp, hpl, _⟩ := C19_encode bs hb
  exact ⟨out, eo, by rw [C19_decode, hp, toBytes_byteBits bs hb pad (by omega)]⟩

/-- "rep!" encodes to "cmVwIQ==\n" and back. -/
example : encode [114, 101, 112, 33] = some [99, 109, 86, 119, 73, 81, 61, 61, 10] ∧
    decode [99, 109, 86, 119, 73, 81, 61, 61, 10] = [114, 101, 112, 33] ∧
    (∀ b ∈ [114, 101, 112, 33], b < 256) :=
  ⟨by decide +kernel, by decide +kernel, by decide⟩

end Rep.Base64
