/-
Streams kept in strings, and `format` (src/streams.c).

Strings live in a heap, so that a string handed out can be told from the buffer of a stream.  `none` stands
for what the language C leaves undefined: an access outside a block of memory, or an `int` which overflows.

Simplified: memory is never exhausted; strings made by `rep_make_string` are writable; no interrupt arrives.
`int` has 32 bits and `long` 64.
-/

namespace Rep.Stream

abbrev Byte := BitVec 8

/-- A string: the bytes allocated for it (`none` for a byte never written) and the length held in its header
(rep_lisp.h:365-385). -/
structure Str where
  mem : List (Option Byte)
  len : Nat
  deriving DecidableEq, Repr

abbrev Heap := List Str

/-- The value of an `int` expression; undefined when it overflows: `z` is from -2^31 to 2^31 - 1 if it is 0 or
-1 when divided by 2^31. -/
def int (z : Int) : Option Int := if z / 2147483648 = 0 ∨ z / 2147483648 = -1 then some z else none

/-- A `long` assigned to an `int` (GCC: modulo 2^32). -/
def toInt (z : Int) : Int :=
  if z % 4294967296 / 2147483648 = 0 then z % 4294967296 else z % 4294967296 - 4294967296

/-- A `long` compared with an `unsigned long`. -/
def toUnsigned (z : Int) : Nat := (z % 18446744073709551616).toNat

/-- `rep_make_string` (values.c:270-278): room for `n` bytes, the last of which is meant for the zero. -/
def makeString (h : Heap) (n : Nat) : Heap × Nat := (h ++ [⟨List.replicate n none, n - 1⟩], h.length)

/-- Bytes stored from the offset on. -/
def store (m : List (Option Byte)) (off : Int) (bs : List (Option Byte)) : Option (List (Option Byte)) :=
  if 0 ≤ off ∧ off.toNat + bs.length ≤ m.length then
    some (m.take off.toNat ++ bs ++ m.drop (off.toNat + bs.length))
  else none

/-- `n` bytes read from the start of a block. -/
def load {α : Type} (m : List α) (n : Int) : Option (List α) :=
  if 0 ≤ n ∧ n.toNat ≤ m.length then some (m.take n.toNat) else none

/-- `rep_string_dupn` (values.c:280-290) -/
def dupn (h : Heap) (src : List (Option Byte)) (n : Nat) : Option (Heap × Nat) :=
  match load src n with
  | none => none
  | some bs =>
    let (h, k) := makeString h (n + 1)
    match store (List.replicate (n + 1) none) 0 (bs ++ [some 0]) with
    | none => none
    | some m => some (h.set k ⟨m, n⟩, k)

/-- An output stream `(STRING . SIZE)`. -/
structure OStream where
  str : Nat
  cap : Int
  deriving DecidableEq, Repr

/-- `make-string-output-stream` (streams.c:1153-1163) -/
def makeOutput (h : Heap) : Option (Heap × OStream) :=
  (dupn h [] 0).map fun p => (p.1, ⟨p.2, 0⟩)

/-- A bigger buffer, with the first `len` bytes of the old one (streams.c:239-245 and 356-362). -/
def enlarge (h : Heap) (st : Str) (len newlen : Int) : Option (Heap × OStream × List (Option Byte)) :=
  match int (newlen + 1) with
  | none => none
  | some n =>
    let (h, k) := makeString h n.toNat
    match load st.mem len with
    | none => none
    | some old =>
      match store (List.replicate n.toNat none) 0 old with
      | none => none
      | some m => some (h, ⟨k, newlen⟩, m)

/-- The size asked for (streams.c:238 and 353). -/
def double (cap : Int) : Option Int := if cap < 16 then some 32 else int (cap * 2)

/-- The first part of `rep_stream_putc`: the buffer to write to (streams.c:234-246). -/
def putcRoom (h : Heap) (s : OStream) (st : Str) (len : Int) : Option (Heap × OStream × List (Option Byte)) :=
  match int (len + 1) with
  | none => none
  | some len1 =>
    if len1 ≥ toInt s.cap then
      match double (toInt s.cap) with
      | none => none
      | some newlen => enlarge h st len newlen
    else some (h, s, st.mem)

/-- `rep_stream_putc` on a string (streams.c:228-251). -/
def putc (h : Heap) (s : OStream) (c : Int) : Option (Heap × OStream) :=
  match h[s.str]? with
  | none => none
  | some st =>
    let len := toInt st.len
    match putcRoom h s st len with
    | none => none
    | some (h, s, m) =>
      match store m len [some (BitVec.ofInt 8 c), some 0] with
      | none => none
      | some m => some (h.set s.str ⟨m, (len + 1).toNat⟩, s)

/-- The first part of `rep_stream_puts` (streams.c:348-363). -/
def putsRoom (h : Heap) (s : OStream) (st : Str) (len n : Int) : Option (Heap × OStream × List (Option Byte)) :=
  match int (len + n + 1) with
  | none => none
  | some newlen =>
    if toInt s.cap ≤ newlen then
      match double (toInt s.cap) with
      | none => none
      | some tmp => enlarge h st len (if tmp > newlen then tmp else newlen)
    else some (h, s, st.mem)

/-- The number of bytes to write: -1 asks for the whole, up to the first zero if it is not the bytes of a
string object (streams.c:333-335). -/
def putsLen (src : List Byte) (n : Int) (vstring : Bool) : Int :=
  if n = -1 then (if vstring then toInt src.length else toInt (src.takeWhile (· ≠ 0)).length) else n

/-- `rep_stream_puts` on a string (streams.c:342-369); what is at the address given is the bytes `src` and a
zero. -/
def puts (h : Heap) (s : OStream) (src : List Byte) (n : Int) (vstring : Bool) : Option (Heap × OStream) :=
  match h[s.str]? with
  | none => none
  | some st =>
    let len := toInt st.len
    let n := putsLen src n vstring
    match putsRoom h s st len n with
    | none => none
    | some (h, s, m) =>
      match load src n with
      | none => none
      | some bs =>
        match store m len (bs.map some ++ [some 0]) with
        | none => none
        | some m => some (h.set s.str ⟨m, (len + n).toNat⟩, s)

/-- `get-output-stream-string` (streams.c:1165-1195): the string returned and the stream reset. -/
def getString (h : Heap) (s : OStream) : Option (Heap × OStream × Nat) :=
  match h[s.str]? with
  | none => none
  | some st =>
    match (if st.len ≠ toUnsigned s.cap then dupn h st.mem st.len else some (h, s.str)) with
    | none => none
    | some (h, r) =>
      match dupn h [] 0 with
      | none => none
      | some (h, e) => some (h, ⟨e, 0⟩, r)

/-- What a program may do with an output stream: `(write S CHAR)`, `(write S STRING)`,
`(write S STRING LENGTH)` and `(get-output-stream-string S)`. -/
inductive Op
  | char (c : Int)
  | string (bs : List Byte) (n : Option Int)
  | take

/-- What it gets: the number of characters written, an error, or a string. -/
inductive Res
  | wrote (n : Int)
  | refused
  | string (k : Nat)
  deriving DecidableEq, Repr

/-- `write` (streams.c:521-570) and `get-output-stream-string`. -/
def step (h : Heap) (s : OStream) : Op → Option (Heap × OStream × Res)
  | .char c => (putc h s c).map fun p => (p.1, p.2, .wrote 1)
  | .string bs none => (puts h s bs (toInt bs.length) true).map fun p => (p.1, p.2, .wrote (toInt bs.length))
  | .string bs (some n) =>
    let actual := toInt n
    if toUnsigned actual > bs.length then some (h, s, .refused)
    else (puts h s bs actual (toUnsigned actual == bs.length)).map fun p =>
      (p.1, p.2, .wrote (putsLen bs actual (toUnsigned actual == bs.length)))
  | .take => (getString h s).map fun p => (p.1, p.2.1, .string p.2.2)

def run (h : Heap) (s : OStream) : List Op → Option (Heap × OStream × List Res)
  | [] => some (h, s, [])
  | o :: os =>
    match step h s o with
    | none => none
    | some (h, s, r) =>
      match run h s os with
      | none => none
      | some (h, s, rs) => some (h, s, r :: rs)

/-! ### Input -/

/-- An input stream: `(POSITION . STRING)`, or a file from which these bytes are still to be read. -/
inductive Src
  | str (pos : Int) (bs : List Byte)
  | file (bs : List Byte)
  deriving DecidableEq, Repr

/-- `make-string-input-stream` (streams.c:1140-1151) -/
def makeInput (bs : List Byte) (start : Option Int) : Src := .str (start.getD 0) bs

/-- `rep_stream_getc` (streams.c:76-137) -/
def getc : Src → Option Byte × Src
  | .str pos bs =>
    if toUnsigned pos < bs.length then (bs[toUnsigned pos]?, .str (pos + 1) bs) else (none, .str pos bs)
  | .file [] => (none, .file [])
  | .file (b :: bs) => (some b, .file bs)

/-- `rep_stream_ungetc` (streams.c:146-205) -/
def ungetc (c : Byte) : Src → Src
  | .str pos bs => .str (pos - 1) bs
  | .file bs => .file (c :: bs)

/-- `peek-char` (streams.c:588-606) -/
def peekChar (s : Src) : Option Byte × Src :=
  match getc s with
  | (some c, s) => (some c, ungetc c s)
  | (none, s) => (none, s)

/-- The loop of `read-chars` (streams.c:636-639). -/
def charsLoop : Nat → Src → List Byte × Src
  | 0, s => ([], s)
  | n + 1, s =>
    match getc s with
    | (none, s) => ([], s)
    | (some c, s) => let r := charsLoop n s; (c :: r.1, r.2)

/-- `read-chars` (streams.c:608-645); `room` is what `alloca` can still take from the stack.
For a file `fread` is used. -/
def readChars (room : Nat) (s : Src) (count : Int) : Option (Option (List Byte) × Src) :=
  if 0 ≤ count ∧ count ≤ room then
    let r := match s with
      | .str _ _ => charsLoop count.toNat s
      | .file bs => (bs.take count.toNat, .file (bs.drop count.toNat))
    some (if r.1.length > 0 then some r.1 else none, r.2)
  else none

/-- At most `n` bytes, up to a newline: the inner loop of `read-line` (streams.c:690-698), and `fgets`. -/
def fill : Nat → Src → List Byte × Src
  | 0, s => ([], s)
  | n + 1, s =>
    match getc s with
    | (none, s) => ([], s)
    | (some c, s) => if c = 10 then ([c], s) else let r := fill n s; (c :: r.1, r.2)

/-- What `read-line` takes for the bytes read: for a file it asks `strlen` (streams.c:681-687). -/
def seen (s : Src) (got : List Byte) : List Byte :=
  match s with
  | .str _ _ => got
  | .file _ => got.takeWhile (· ≠ 0)

/-- The loop of `read-line` (streams.c:660-712).  `acc` is the buffer up to `offset`. -/
def lineLoop : Nat → Src → Int → List Byte → Option (Option (List Byte) × Src)
  | 0, _, _, _ => none
  | fuel + 1, s, bufsize, acc =>
    let maxread := (bufsize - acc.length - 1).toNat
    let r := fill maxread s
    let line := seen s r.1
    if line.length < maxread ∨ line.getLast? = some 10 then
      some (if (acc ++ line).length ≠ 0 then some (acc ++ line) else none, r.2)
    else
      match int (bufsize * 2) with
      | none => none
      | some b => lineLoop fuel r.2 b (acc ++ line)

/-- The bytes of a stream, whatever has been read of them. -/
def Src.size : Src → Nat
  | .str _ bs => bs.length
  | .file bs => bs.length

/-- `read-line` (streams.c:647-713) -/
def readLine (s : Src) : Option (Option (List Byte) × Src) := lineLoop (s.size + 2) s 500 []

/-- The loop of `copy-stream` (streams.c:727-741): `buf` holds `i` bytes, `len` have been copied.
`BUFSIZ` is 8192. -/
def copyLoop : Nat → Src → Heap → OStream → List Byte → Int → Option (Heap × OStream × Src × List Byte × Int)
  | 0, _, _, _, _, _ => none
  | fuel + 1, s, h, d, buf, len =>
    match getc s with
    | (none, s) => some (h, d, s, buf, len)
    | (some c, s) =>
      match int (len + 1) with
      | none => none
      | some len1 =>
        if buf.length = 8192 then
          match puts h d buf 8192 false with
          | none => none
          | some (h, d) => copyLoop fuel s h d [c] len1
        else copyLoop fuel s h d (buf ++ [c]) len1

/-- `copy-stream` (streams.c:715-748) -/
def copyStream (s : Src) (h : Heap) (d : OStream) : Option (Heap × OStream × Src × Int) :=
  match copyLoop (s.size + 2) s h d [] 0 with
  | none => none
  | some (h, d, s, buf, len) =>
    if buf.length ≠ 0 then
      match puts h d buf buf.length false with
      | none => none
      | some (h, d) => some (h, d, s, len)
    else some (h, d, s, len)

/-- What a program may do with an input stream. -/
inductive IOp
  | char
  | peek
  | chars (n : Int)
  | line

inductive IRes
  | char (c : Option Byte)
  | text (t : Option (List Byte))
  deriving DecidableEq, Repr

def istep (room : Nat) (s : Src) : IOp → Option (IRes × Src)
  | .char => some (.char (getc s).1, (getc s).2)
  | .peek => some (.char (peekChar s).1, (peekChar s).2)
  | .chars n => (readChars room s n).map fun p => (.text p.1, p.2)
  | .line => (readLine s).map fun p => (.text p.1, p.2)

def irun (room : Nat) (s : Src) : List IOp → Option (List IRes × Src)
  | [] => some ([], s)
  | o :: os =>
    match istep room s o with
    | none => none
    | some (r, s) =>
      match irun room s os with
      | none => none
      | some (rs, s) => some (r :: rs, s)

end Rep.Stream
