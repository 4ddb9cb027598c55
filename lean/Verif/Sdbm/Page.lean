/-
Model of the pages of the sdbm library (src/sdbm_pair.c, src/sdbm_hash.c).

A page is its 1024 bytes.  It begins with an array of 16-bit integers in the byte order
of the machine, taken to be little-endian: the number of offsets, then the offsets of
the keys and values, which fill the page from its end.
-/
import Mathlib.Data.List.Basic

namespace Rep.Sdbm

abbrev Bytes := List UInt8

/-- A page: 1024 bytes (src/sdbm.h:8 `PBLKSIZ`). -/
abbrev Page := Bytes

/-- src/sdbm_hash.c:18 `sdbm_hash`: `n = *str++ + 65599 * n` with `n` an unsigned long
of 64 bits and `char` signed. -/
def hashByte (n : Nat) (c : UInt8) : Nat :=
  ((if c.toNat < 128 then c.toNat else 2 ^ 64 - 256 + c.toNat) + 65599 * n) % 2 ^ 64

def hash (key : Bytes) : Nat := key.foldl hashByte 0

/-- The bytes of a 16-bit integer. -/
def le16 (v : Int) : Bytes :=
  [UInt8.ofNat ((v % 65536).toNat % 256), UInt8.ofNat ((v % 65536).toNat / 256)]

/-- `ino[i]` (src/sdbm_pair.c:54: `short *ino = (short *) pag`). -/
def ino (p : Page) (i : Nat) : Int :=
  let u := (p.getD (2 * i) 0).toNat + 256 * (p.getD (2 * i + 1) 0).toNat
  if u < 32768 then u else (u : Int) - 65536

/-- The bytes from `off` replaced by `bs`. -/
def splice (p : Page) (off : Nat) (bs : Bytes) : Page := p.take off ++ bs ++ p.drop (off + bs.length)

/-- `memcpy` into the page; `none` if it is out of bounds. -/
def write (p : Page) (off : Int) (bs : Bytes) : Option Page :=
  if 0 ≤ off ∧ off + bs.length ≤ 1024 then some (splice p off.toNat bs) else none

/-- The `len` bytes at `off`. -/
def slice (p : Page) (off len : Int) : Bytes := (p.drop off.toNat).take len.toNat

/-- `ino[i] = v`. -/
def setIno (p : Page) (i : Nat) (v : Int) : Option Page := write p (2 * i) (le16 v)

/-- The page after `memset (pag, 0, PBLKSIZ)`. -/
def zeroPage : Page := List.replicate 1024 0

/-- The end of the free area: `((n = ino[0]) > 0) ? ino[n] : PBLKSIZ`. -/
def freeEnd (p : Page) : Int :=
  let n := ino p 0
  if n > 0 then ino p n.toNat else 1024

/-- src/sdbm_pair.c:46 `sdbm_fitpair`. -/
def fitpair (p : Page) (need : Int) : Bool :=
  need + 4 ≤ freeEnd p - (ino p 0 + 1) * 2

/-- src/sdbm_pair.c:65 `sdbm_putpair`. -/
def putpair (p : Page) (key val : Bytes) : Option Page := do
  let n := (ino p 0).toNat
  let off := freeEnd p - key.length
  let p ← write p off key
  let p ← setIno p (n + 1) off
  let off := off - val.length
  let p ← write p off val
  let p ← setIno p (n + 2) off
  setIno p 0 (ino p 0 + 2)

/-- src/sdbm_pair.c:230 the loop of `seepair`; `fuel` bounds the number of rounds. -/
def seepairLoop (p : Page) (n : Int) (key : Bytes) : Nat → Nat → Int → Nat
  | 0, _, _ => 0
  | fuel + 1, i, off =>
      if (i : Int) < n then
        if (key.length : Int) = off - ino p i ∧ key = slice p (ino p i) key.length then i
        else seepairLoop p n key fuel (i + 2) (ino p (i + 1))
      else 0

/-- src/sdbm_pair.c:219 `seepair`: the index of the key's offset, or 0. -/
def seepair (p : Page) (n : Int) (key : Bytes) : Nat := seepairLoop p n key (n.toNat + 1) 1 1024

/-- src/sdbm_pair.c:94 `sdbm_getpair`. -/
def getpair (p : Page) (key : Bytes) : Option Bytes :=
  let n := ino p 0
  if n = 0 then none
  else
    let i := seepair p n key
    if i = 0 then none else some (slice p (ino p (i + 1)) (ino p i - ino p (i + 1)))

/-- src/sdbm_pair.c:116 `sdbm_duppair`. -/
def duppair (p : Page) (key : Bytes) : Bool := ino p 0 > 0 && seepair p (ino p 0) key > 0

/-- src/sdbm_pair.c:126 `sdbm_getnkey`. -/
def getnkey (p : Page) (num : Nat) : Option Bytes :=
  let num : Int := num * 2 - 1
  if ino p 0 = 0 ∨ num > ino p 0 then none
  else
    let off := if num > 1 then ino p (num - 1).toNat else 1024
    some (slice p (ino p num.toNat) (off - ino p num.toNat))

/-- src/sdbm_pair.c:205 the loop `ino[i] = ino[i + 2] + zoo`; `fuel` bounds the number of
rounds. -/
def shiftLoop (n : Nat) (zoo : Int) : Nat → Nat → Page → Option Page
  | 0, _, p => some p
  | fuel + 1, i, p =>
      if i < n - 1 then
        (setIno p i (ino p (i + 2) + zoo)).bind fun p => shiftLoop n zoo fuel (i + 1) p
      else some p

/-- src/sdbm_pair.c:147 `sdbm_delpair`: the page, and whether the key was found.  The
bytes are moved one by one from the end, so that overlapping is harmless. -/
def delpair (p : Page) (key : Bytes) : Option (Page × Bool) :=
  let n := (ino p 0).toNat
  if ino p 0 = 0 then some (p, false)
  else
    let i := seepair p (ino p 0) key
    if i = 0 then some (p, false)
    else if i < n - 1 then
      let dst := if i = 1 then 1024 else ino p (i - 1)
      let src := ino p (i + 1)
      let zoo := dst - src
      let m := ino p (i + 1) - ino p n
      let moved := if m > 0 then write p (dst - m) (slice p (src - m) m) else some p
      moved.bind fun p => (shiftLoop n zoo n i p).bind fun p => (setIno p 0 (ino p 0 - 2)).map fun p => (p, true)
    else (setIno p 0 (ino p 0 - 2)).map fun p => (p, true)

/-- src/sdbm_pair.c:260 the loop of `sdbm_splpage`: `cur` is the copy of the page, `i`
the index of the next key's offset, `n` the number of pairs left.  The pages are the
old one and the new one. -/
def splpageLoop (hash : Bytes → Nat) (cur : Page) (sbit : Nat) : Nat → Nat → Int → Page → Page → Option (Page × Page)
  | 0, _, _, pag, new => some (pag, new)
  | n + 1, i, off, pag, new =>
      let key := slice cur (ino cur i) (off - ino cur i)
      let val := slice cur (ino cur (i + 1)) (ino cur i - ino cur (i + 1))
      if hash key &&& sbit ≠ 0 then
        (putpair new key val).bind fun new => splpageLoop hash cur sbit n (i + 2) (ino cur (i + 1)) pag new
      else
        (putpair pag key val).bind fun pag => splpageLoop hash cur sbit n (i + 2) (ino cur (i + 1)) pag new

/-- src/sdbm_pair.c:239 `sdbm_splpage`: the old page and the new page. -/
def splpage (hash : Bytes → Nat) (p : Page) (sbit : Nat) : Option (Page × Page) :=
  splpageLoop hash p sbit (((ino p 0).toNat + 1) / 2) 1 1024 zeroPage zeroPage

/-- src/sdbm_pair.c:288 the loop of `sdbm_chkpage`. -/
def chkpageLoop (p : Page) : Nat → Nat → Int → Bool
  | 0, _, _ => true
  | n + 1, i, off =>
      if ino p i > off ∨ ino p (i + 1) > off ∨ ino p (i + 1) > ino p i then false
      else chkpageLoop p n (i + 2) (ino p (i + 1))

/-- src/sdbm_pair.c:283 `sdbm_chkpage`. -/
def chkpage (p : Page) : Bool :=
  let n := ino p 0
  if n < 0 ∨ n > 512 then false else chkpageLoop p ((n.toNat + 1) / 2) 1 1024

end Rep.Sdbm
