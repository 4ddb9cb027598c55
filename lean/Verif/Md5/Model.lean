import Verif.NumText.Model

/-
Message digests (src/md5.c, src/rep-md5.c).

Simplified: the machine is little-endian, `char` is signed and arithmetic shifts copy the sign (as with
GCC on x86); accesses to words need no alignment; GMP is there.
-/

namespace Rep.Md5

/-- `md5_uint32` (md5.h:40-64) -/
abbrev W := BitVec 32
abbrev Byte := BitVec 8

/-- The local variables of `md5_process_block` (md5.c:274-277), which are also fields of the context. -/
structure Regs where
  a : W
  b : W
  c : W
  d : W
  deriving DecidableEq, Repr

inductive Reg
  | A | B | C | D
  deriving DecidableEq, Repr

def Regs.get (r : Regs) : Reg → W
  | .A => r.a
  | .B => r.b
  | .C => r.c
  | .D => r.d

def Regs.set (r : Regs) (x : W) : Reg → Regs
  | .A => { r with a := x }
  | .B => { r with b := x }
  | .C => { r with c := x }
  | .D => { r with d := x }

inductive Fn
  | FF | FG | FH | FI
  deriving DecidableEq, Repr

/-- `FF` (md5.c:255) -/
def ff (b c d : W) : W := d ^^^ (b &&& (c ^^^ d))

/-- The four functions (md5.c:255-258). -/
def Fn.app : Fn → W → W → W → W
  | .FF, b, c, d => ff b c d
  | .FG, b, c, d => ff d b c
  | .FH, b, c, d => b ^^^ c ^^^ d
  | .FI, b, c, d => c ^^^ (b ||| ~~~ d)

/-- The arguments of the macro `OP` (md5.c:302, 344). -/
structure Op where
  f : Fn
  a : Reg
  b : Reg
  c : Reg
  d : Reg
  k : Nat
  s : Nat
  t : W
  deriving DecidableEq, Repr

/-- `CYCLIC` (md5.c:314) -/
def cyclic (w : W) (s : Nat) : W := (w <<< s) ||| (w >>> (32 - s))

/-- `OP` (md5.c:302-310, 344-351) -/
def op (words : Nat → W) (o : Op) (r : Regs) : Regs :=
  let x := r.get o.a + (o.f.app (r.get o.b) (r.get o.c) (r.get o.d) + words o.k + o.t)
  let x := cyclic x o.s
  r.set (x + r.get o.b) o.a

/-- The sixteen operations of the first round (md5.c:323-338).  Written there without the number of the word:
the words are taken in order (md5.c:302-310). -/
def round1 : List Op := [
  ⟨.FF, .A, .B, .C, .D, 0, 7, 0xd76aa478⟩,
  ⟨.FF, .D, .A, .B, .C, 1, 12, 0xe8c7b756⟩,
  ⟨.FF, .C, .D, .A, .B, 2, 17, 0x242070db⟩,
  ⟨.FF, .B, .C, .D, .A, 3, 22, 0xc1bdceee⟩,
  ⟨.FF, .A, .B, .C, .D, 4, 7, 0xf57c0faf⟩,
  ⟨.FF, .D, .A, .B, .C, 5, 12, 0x4787c62a⟩,
  ⟨.FF, .C, .D, .A, .B, 6, 17, 0xa8304613⟩,
  ⟨.FF, .B, .C, .D, .A, 7, 22, 0xfd469501⟩,
  ⟨.FF, .A, .B, .C, .D, 8, 7, 0x698098d8⟩,
  ⟨.FF, .D, .A, .B, .C, 9, 12, 0x8b44f7af⟩,
  ⟨.FF, .C, .D, .A, .B, 10, 17, 0xffff5bb1⟩,
  ⟨.FF, .B, .C, .D, .A, 11, 22, 0x895cd7be⟩,
  ⟨.FF, .A, .B, .C, .D, 12, 7, 0x6b901122⟩,
  ⟨.FF, .D, .A, .B, .C, 13, 12, 0xfd987193⟩,
  ⟨.FF, .C, .D, .A, .B, 14, 17, 0xa679438e⟩,
  ⟨.FF, .B, .C, .D, .A, 15, 22, 0x49b40821⟩]

/-- The second round (md5.c:354-369). -/
def round2 : List Op := [
  ⟨.FG, .A, .B, .C, .D, 1, 5, 0xf61e2562⟩,
  ⟨.FG, .D, .A, .B, .C, 6, 9, 0xc040b340⟩,
  ⟨.FG, .C, .D, .A, .B, 11, 14, 0x265e5a51⟩,
  ⟨.FG, .B, .C, .D, .A, 0, 20, 0xe9b6c7aa⟩,
  ⟨.FG, .A, .B, .C, .D, 5, 5, 0xd62f105d⟩,
  ⟨.FG, .D, .A, .B, .C, 10, 9, 0x02441453⟩,
  ⟨.FG, .C, .D, .A, .B, 15, 14, 0xd8a1e681⟩,
  ⟨.FG, .B, .C, .D, .A, 4, 20, 0xe7d3fbc8⟩,
  ⟨.FG, .A, .B, .C, .D, 9, 5, 0x21e1cde6⟩,
  ⟨.FG, .D, .A, .B, .C, 14, 9, 0xc33707d6⟩,
  ⟨.FG, .C, .D, .A, .B, 3, 14, 0xf4d50d87⟩,
  ⟨.FG, .B, .C, .D, .A, 8, 20, 0x455a14ed⟩,
  ⟨.FG, .A, .B, .C, .D, 13, 5, 0xa9e3e905⟩,
  ⟨.FG, .D, .A, .B, .C, 2, 9, 0xfcefa3f8⟩,
  ⟨.FG, .C, .D, .A, .B, 7, 14, 0x676f02d9⟩,
  ⟨.FG, .B, .C, .D, .A, 12, 20, 0x8d2a4c8a⟩]

/-- The third round (md5.c:372-387). -/
def round3 : List Op := [
  ⟨.FH, .A, .B, .C, .D, 5, 4, 0xfffa3942⟩,
  ⟨.FH, .D, .A, .B, .C, 8, 11, 0x8771f681⟩,
  ⟨.FH, .C, .D, .A, .B, 11, 16, 0x6d9d6122⟩,
  ⟨.FH, .B, .C, .D, .A, 14, 23, 0xfde5380c⟩,
  ⟨.FH, .A, .B, .C, .D, 1, 4, 0xa4beea44⟩,
  ⟨.FH, .D, .A, .B, .C, 4, 11, 0x4bdecfa9⟩,
  ⟨.FH, .C, .D, .A, .B, 7, 16, 0xf6bb4b60⟩,
  ⟨.FH, .B, .C, .D, .A, 10, 23, 0xbebfbc70⟩,
  ⟨.FH, .A, .B, .C, .D, 13, 4, 0x289b7ec6⟩,
  ⟨.FH, .D, .A, .B, .C, 0, 11, 0xeaa127fa⟩,
  ⟨.FH, .C, .D, .A, .B, 3, 16, 0xd4ef3085⟩,
  ⟨.FH, .B, .C, .D, .A, 6, 23, 0x04881d05⟩,
  ⟨.FH, .A, .B, .C, .D, 9, 4, 0xd9d4d039⟩,
  ⟨.FH, .D, .A, .B, .C, 12, 11, 0xe6db99e5⟩,
  ⟨.FH, .C, .D, .A, .B, 15, 16, 0x1fa27cf8⟩,
  ⟨.FH, .B, .C, .D, .A, 2, 23, 0xc4ac5665⟩]

/-- The fourth round (md5.c:390-405). -/
def round4 : List Op := [
  ⟨.FI, .A, .B, .C, .D, 0, 6, 0xf4292244⟩,
  ⟨.FI, .D, .A, .B, .C, 7, 10, 0x432aff97⟩,
  ⟨.FI, .C, .D, .A, .B, 14, 15, 0xab9423a7⟩,
  ⟨.FI, .B, .C, .D, .A, 5, 21, 0xfc93a039⟩,
  ⟨.FI, .A, .B, .C, .D, 12, 6, 0x655b59c3⟩,
  ⟨.FI, .D, .A, .B, .C, 3, 10, 0x8f0ccc92⟩,
  ⟨.FI, .C, .D, .A, .B, 10, 15, 0xffeff47d⟩,
  ⟨.FI, .B, .C, .D, .A, 1, 21, 0x85845dd1⟩,
  ⟨.FI, .A, .B, .C, .D, 8, 6, 0x6fa87e4f⟩,
  ⟨.FI, .D, .A, .B, .C, 15, 10, 0xfe2ce6e0⟩,
  ⟨.FI, .C, .D, .A, .B, 6, 15, 0xa3014314⟩,
  ⟨.FI, .B, .C, .D, .A, 13, 21, 0x4e0811a1⟩,
  ⟨.FI, .A, .B, .C, .D, 4, 6, 0xf7537e82⟩,
  ⟨.FI, .D, .A, .B, .C, 11, 10, 0xbd3af235⟩,
  ⟨.FI, .C, .D, .A, .B, 2, 15, 0x2ad7d2bb⟩,
  ⟨.FI, .B, .C, .D, .A, 9, 21, 0xeb86d391⟩]

/-- One round of the loop (md5.c:289-412). -/
def transform (words : Nat → W) (r : Regs) : Regs :=
  let q := (round1 ++ round2 ++ round3 ++ round4).foldl (fun r o => op words o r) r
  ⟨q.a + r.a, q.b + r.b, q.c + r.c, q.d + r.d⟩

/-- The word at an address that is a multiple of four, on a little-endian machine. -/
def load (mem : List Byte) (k : Nat) : W :=
  (((mem.getD (4 * k + 3) 0 ++ mem.getD (4 * k + 2) 0 : BitVec 16) ++ mem.getD (4 * k + 1) 0 : BitVec 24)
    ++ mem.getD (4 * k) 0 : BitVec 32)

/-- `*(md5_uint32 *) p = w` on a little-endian machine: the bytes. -/
def store (w : W) : List Byte :=
  [w.setWidth 8, (w >>> 8).setWidth 8, (w >>> 16).setWidth 8, (w >>> 24).setWidth 8]

/-- `struct md5_ctx` (md5.h:75-85) -/
structure Ctx where
  regs : Regs
  total0 : W
  total1 : W
  buflen : Nat
  /-- 128 bytes -/
  buffer : List Byte
  deriving DecidableEq, Repr

/-- `md5_init_ctx` (md5.c:62-73); the buffer is not initialised. -/
def init (junk : List Byte) : Ctx := ⟨⟨0x67452301, 0xefcdab89, 0x98badcfe, 0x10325476⟩, 0, 0, 0, junk⟩

/-- The loop of `md5_process_block` (md5.c:289-412) with the body `f`, `n` times. -/
def iter {σ : Type} (f : List Byte → σ → σ) : Nat → List Byte → σ → σ
  | 0, _, q => q
  | n + 1, m, q => iter f n (m.drop 64) (f m q)

/-- The loop of `md5_process_block` (md5.c:289-412), `n` times. -/
def blocks (n : Nat) (mem : List Byte) (r : Regs) : Regs := iter (fun m r => transform (load m) r) n mem r

/-- The counting in `md5_process_block` (md5.c:282-284): `len` is a `size_t`. -/
def count (c : Ctx) (len : Nat) : Ctx :=
  let t := c.total0 + BitVec.ofNat 32 len
  { c with total0 := t, total1 := if t.toNat < len then c.total1 + 1 else c.total1 }

/-- `md5_process_block` (md5.c:263-419); none: it reads beyond the `mem` it is given. -/
def processBlock (c : Ctx) (mem : List Byte) (len : Nat) : Option Ctx :=
  let n := (len / 4 + 15) / 16
  if mem.length < 64 * n then none
  else
    let c := count c len
    some { c with regs := blocks n mem c.regs }

/-- `memcpy (&ctx->buffer[off], src, src length)`; none: beyond the end of the buffer. -/
def copyIn (buffer : List Byte) (off : Nat) (src : List Byte) : Option (List Byte) :=
  if off + src.length ≤ buffer.length then some (buffer.take off ++ src ++ buffer.drop (off + src.length)) else none

/-- `md5_process_bytes`, bytes waiting in the buffer (md5.c:213-233): the context and the number of bytes
used. -/
def fillBuffer (c : Ctx) (mem : List Byte) : Option (Ctx × Nat) :=
  let left := c.buflen
  let add := if 128 - left > mem.length then mem.length else 128 - left
  match copyIn c.buffer left (mem.take add) with
  | none => none
  | some buf =>
    let c := { c with buffer := buf, buflen := left + add }
    if left + add > 64 then
      match processBlock c c.buffer ((left + add) / 64 * 64) with
      | none => none
      | some c =>
        match copyIn c.buffer 0 ((c.buffer.drop ((left + add) / 64 * 64)).take ((left + add) % 64)) with
        | none => none
        | some buf => some ({ c with buffer := buf, buflen := (left + add) % 64 }, add)
    else some (c, add)

/-- `md5_process_bytes`, the rest (md5.c:235-248). -/
def bulk (c : Ctx) (mem : List Byte) : Option Ctx :=
  let r :=
    if mem.length > 64 then
      (processBlock c mem (mem.length / 64 * 64)).map fun c => (c, mem.drop (mem.length / 64 * 64))
    else some (c, mem)
  match r with
  | none => none
  | some (c, mem) =>
    if mem.length > 0 then (copyIn c.buffer 0 mem).map fun buf => { c with buffer := buf, buflen := mem.length }
    else some c

/-- `md5_process_bytes` (md5.c:205-249). -/
def processBytes (c : Ctx) (mem : List Byte) : Option Ctx :=
  if c.buflen ≠ 0 then
    match fillBuffer c mem with
    | none => none
    | some (c, add) => bulk c (mem.drop add)
  else bulk c mem

/-- `fillbuf` (md5.c:56) -/
def fillbuf : List Byte := 0x80 :: List.replicate 63 0

/-- `md5_read_ctx` (md5.c:80-91) -/
def readCtx (c : Ctx) : List Byte := store c.regs.a ++ store c.regs.b ++ store c.regs.c ++ store c.regs.d

/-- The end of `md5_finish_ctx` (md5.c:112-122): padding, the number of bits, the last blocks. -/
def finishPad (c : Ctx) (bytes pad : Nat) : Option (List Byte) :=
  match copyIn c.buffer bytes (fillbuf.take pad) with
  | none => none
  | some buf =>
    match copyIn buf (bytes + pad) (store (BitVec.shiftLeft c.total0 3)) with
    | none => none
    | some buf =>
      match copyIn buf (bytes + pad + 4) (store (BitVec.shiftLeft c.total1 3 ||| BitVec.ushiftRight c.total0 29)) with
      | none => none
      | some buf => (processBlock c buf (bytes + pad + 8)).map readCtx

/-- `md5_finish_ctx` (md5.c:98-123); the bytes in the buffer are counted by the same lines as the blocks. -/
def finish (c : Ctx) : Option (List Byte) :=
  let bytes := c.buflen
  finishPad (count c bytes) bytes (if bytes ≥ 56 then 64 + 56 - bytes else 56 - bytes)

/-- `md5_buffer` (md5.c:186-202) -/
def md5Buffer (junk : List Byte) (mem : List Byte) : Option (List Byte) :=
  match processBytes (init junk) mem with
  | none => none
  | some c => finish c

/-- A file being read: what is left of it, how many bytes (and one) the following calls of `fread` give at
most, and whether an error is found where the data ends. -/
structure File where
  data : List Byte
  sizes : List Nat
  err : Bool
  deriving Repr

/-- `fread (…, 1, n, stream)` -/
def fread (f : File) (n : Nat) : List Byte × File :=
  let k := min n ((f.sizes.headD n) + 1)
  (f.data.take k, { f with data := f.data.drop k, sizes := f.sizes.tail })

/-- The inner loop of `md5_stream` (md5.c:154-162): what has been read, and whether the last call gave
nothing. -/
def readBlock : Nat → File → List Byte → List Byte × Bool × File
  | 0, f, acc => (acc, true, f)
  | fuel + 1, f, acc =>
    let r := fread f (4096 - acc.length)
    if (acc ++ r.1).length < 4096 ∧ r.1 ≠ [] then readBlock fuel r.2 (acc ++ r.1)
    else (acc ++ r.1, r.1.isEmpty, r.2)

/-- The outcome of reading a file. -/
inductive Out
  | digest (d : List Byte)
  /-- nothing is stored where the digest should be (md5.c:163-164) -/
  | failed
  /-- access beyond a buffer -/
  | bad
  deriving DecidableEq, Repr

def Out.of : Option (List Byte) → Out
  | some d => .digest d
  | none => .bad

/-- The outer loop of `md5_stream` (md5.c:146-182). -/
def streamLoop : Nat → File → Ctx → Out
  | 0, _, _ => .bad
  | fuel + 1, f, c =>
    let r := readBlock (f.data.length + 1) f []
    if r.2.1 then
      if r.2.2.err then .failed
      else if r.1.length > 0 then
        match processBytes c r.1 with
        | none => .bad
        | some c => .of (finish c)
      else .of (finish c)
    else
      match processBlock c r.1 4096 with
      | none => .bad
      | some c => streamLoop fuel r.2.2 c

/-- `md5_stream` (md5.c:129-183) -/
def md5Stream (junk : List Byte) (f : File) : Out := streamLoop (f.data.length + 1) f (init junk)

/-- `hex_digits` (rep-md5.c:33) with an index that must not be negative; none: a byte that lies before
the array. -/
def hexDigit (i : Int) : Option Char := if 0 ≤ i then "0123456789abcdef".toList[i.toNat]? else none

/-- The loop of `digest_to_repv` (rep-md5.c:42-46): `char` is signed. -/
def hexDigits : List Byte → Option (List Char)
  | [] => some []
  | x :: l =>
    match hexDigit (x &&& 15).toInt, hexDigit (x.sshiftRight 4).toInt, hexDigits l with
    | some p, some q, some r => some (p :: q :: r)
    | _, _, _ => none

/-- The result of `md5-string` and `md5-local-file`. -/
inductive Result
  | number (o : NumText.Out)
  /-- made from the bytes that happened to be on the stack -/
  | garbage
  /-- undefined behaviour -/
  | undefined

/-- `digest_to_repv` (rep-md5.c:30-49); without GMP the number is not exact (numbers.c:998-1037). -/
def digestToNumber (d : List Byte) : Result :=
  match hexDigits d with
  | none => .undefined
  | some s => .number (NumText.parseInt s 16 false)

/-- `md5-string` (rep-md5.c:51-67) -/
def md5String (junk mem : List Byte) : Result :=
  match md5Buffer junk mem with
  | none => .undefined
  | some d => digestToNumber d

/-- `md5-local-file` (rep-md5.c:69-93) of a file that can be opened: the result of `md5_stream` is ignored. -/
def md5LocalFile (junk : List Byte) (f : File) : Result :=
  match md5Stream junk f with
  | .bad => .undefined
  | .failed => .garbage
  | .digest d => digestToNumber d

end Rep.Md5
