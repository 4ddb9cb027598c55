/-
Model of the debug buffers (src/debug-buffer.c): buffers of a fixed size into which messages are
printed and which are written out at the end.

Simplifications: formatting of a message is left to the caller, which gives the bytes; they are cut at
255 by `vsnprintf` (debug-buffer.c:87-88).  Memory is a list of bytes of the size of the buffer; a copy
outside of it is undefined.
-/

namespace Rep.DebugBuf

/-- `struct debug_buf` (debug-buffer.c:32-38). -/
structure Buf where
  size : Nat
  ptr : Nat
  wrapped : Bool
  data : List Nat
  deriving DecidableEq, Repr

/-- `rep_db_alloc` (debug-buffer.c:44-61); what the memory holds at first is arbitrary. -/
def alloc (size : Nat) (junk : List Nat) : Buf := { size, ptr := 0, wrapped := false, data := junk }

/-- `memcpy (data + at, src, n)`: none if it goes beyond the end of either. -/
def copy (data : List Nat) (at_ : Nat) (src : List Nat) (n : Nat) : Option (List Nat) :=
  if at_ + n ≤ data.length ∧ n ≤ src.length then some (data.take at_ ++ src.take n ++ data.drop (at_ + n)) else none

/-- `rep_db_vprintf` (debug-buffer.c:80-107). -/
def printf (b : Buf) (msg : List Nat) : Option Buf :=
  let buf := msg.take 255
  let length := buf.length
  if length > b.size - b.ptr then
    let before := b.size - b.ptr
    let after := min (length - before) (b.size - before)
    (copy b.data b.ptr buf before).bind fun d =>
    (copy d 0 (buf.drop before) after).map fun d => { b with data := d, ptr := after, wrapped := true }
  else
    (copy b.data b.ptr buf length).map fun d => { b with data := d, ptr := b.ptr + length }

/-- `rep_db_spew` (debug-buffer.c:186-202), without the heading. -/
def spew (b : Buf) : List Nat :=
  if b.wrapped || b.ptr > 0 then
    if b.wrapped then (b.data.drop b.ptr).take (b.size - b.ptr) ++ b.data.take b.ptr
    else b.data.take b.ptr
  else []

def printAll (b : Buf) : List (List Nat) → Option Buf
  | [] => some b
  | m :: ms => (printf b m).bind fun b => printAll b ms

/-! ### the chain of buffers -/

/-- `db_chain` (debug-buffer.c:42): the buffers by their address, newest first. -/
abbrev Chain := List (Nat × Buf)

/-- `rep_db_free` (debug-buffer.c:63-78): taken out of the chain. -/
def free (c : Chain) (a : Nat) : Chain := c.eraseP fun x => x.1 == a

/-- `rep_db_spew_all`, `rep_db_kill` (debug-buffer.c:204-227). -/
def kill (c : Chain) : List (List Nat) := c.map fun x => spew x.2

end Rep.DebugBuf
