import Mathlib.Analysis.SpecialFunctions.Trigonometric.Basic
import Mathlib.Algebra.Order.Floor.Ring

/-
The MD5 message-digest algorithm as RFC 1321 defines it.
-/

namespace Rep.Md5.Rfc

abbrev Word := BitVec 32
abbrev Byte := BitVec 8

/-- Section 3.4: auxiliary functions. -/
def F (x y z : Word) : Word := (x &&& y) ||| (~~~ x &&& z)
def G (x y z : Word) : Word := (x &&& z) ||| (y &&& ~~~ z)
def H (x y z : Word) : Word := x ^^^ y ^^^ z
def I (x y z : Word) : Word := y ^^^ (x ||| ~~~ z)

/-- The function used in step `i` (counted from 0): a new one every sixteen steps. -/
def fn (i : Nat) : Word → Word → Word → Word :=
  match i / 16 with
  | 0 => F
  | 1 => G
  | 2 => H
  | _ => I

/-- `T[i]` (counted from 1): the integer part of 4294967296 times abs(sin(i)), where i is in radians. -/
noncomputable def T (i : Nat) : Word := BitVec.ofInt 32 ⌊4294967296 * |Real.sin i|⌋

/-- Which word of the block is used in step `i`. -/
def word (i : Nat) : Nat :=
  match i / 16 with
  | 0 => i
  | 1 => (1 + 5 * i) % 16
  | 2 => (5 + 3 * i) % 16
  | _ => 7 * i % 16

/-- How far step `i` rotates. -/
def shift (i : Nat) : Nat :=
  (([[7, 12, 17, 22], [5, 9, 14, 20], [4, 11, 16, 23], [6, 10, 15, 21]].getD (i / 16) []).getD (i % 4) 0)

structure State where
  a : Word
  b : Word
  c : Word
  d : Word

/-- Step `i`: `a = b + ((a + f(b,c,d) + X[k] + T[i]) <<< s)`, and then the four change their places. -/
noncomputable def step (X : Nat → Word) (i : Nat) (q : State) : State :=
  ⟨q.d, q.b + (q.a + fn i q.b q.c q.d + X (word i) + T (i + 1)).rotateLeft (shift i), q.b, q.c⟩

/-- A sequence of four bytes as a word, the low-order byte given first (section 2). -/
def toWord (m : List Byte) (j : Nat) : Word :=
  BitVec.ofNat 32 ((m.getD (4 * j) 0).toNat + (m.getD (4 * j + 1) 0).toNat * 256 +
    (m.getD (4 * j + 2) 0).toNat * 256 ^ 2 + (m.getD (4 * j + 3) 0).toNat * 256 ^ 3)

/-- The first `n` bytes of a number, low-order byte first. -/
def lowBytes (n x : Nat) : List Byte := (List.range n).map fun i => BitVec.ofNat 8 (x / 256 ^ i)

/-- The processing of a block of 64 bytes (section 3.4). -/
noncomputable def block (m : List Byte) (q : State) : State :=
  let r := (List.range 64).foldl (fun r i => step (toWord m) i r) q
  ⟨r.a + q.a, r.b + q.b, r.c + q.c, r.d + q.d⟩

/-- Sections 3.1, 3.2: a one bit and then zeros, so that the length is congruent to 56 modulo 64; and the
number of bits of the message, of which the low-order 64 bits are used. -/
def pad (m : List Byte) (bits : Nat) : List Byte :=
  m ++ [0x80] ++ List.replicate ((119 - m.length % 64) % 64) 0 ++ lowBytes 8 bits

/-- Section 3.3 -/
def start : State := ⟨0x67452301, 0xefcdab89, 0x98badcfe, 0x10325476⟩

/-- All blocks of a message. -/
noncomputable def allBlocks (m : List Byte) : State :=
  (List.range (m.length / 64)).foldl (fun q i => block (m.drop (64 * i)) q) start

/-- Section 3.5: the output, beginning with the low-order byte of A. -/
def output (q : State) : List Byte := lowBytes 4 q.a.toNat ++ lowBytes 4 q.b.toNat ++ lowBytes 4 q.c.toNat ++ lowBytes 4 q.d.toNat

/-- The digest, if the message is taken to have that number of bits. -/
noncomputable def digestWith (bits : Nat) (m : List Byte) : List Byte := output (allBlocks (pad m bits))

/-- The message digest. -/
noncomputable def digest (m : List Byte) : List Byte := digestWith (8 * m.length) m

/-- The number that the digest is in hexadecimal notation, as programs print it. -/
def asNumber (d : List Byte) : Nat := d.foldl (fun v x => v * 256 + x.toNat) 0

end Rep.Md5.Rfc
