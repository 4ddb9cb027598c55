/-
Model of the foreign function interface (src/ffi.c with libffi, src/numbers.c:535-770), on a
machine with 64-bit longs and pointers, little endian, with GMP.

Simplifications: memory is a total map from addresses to bytes; floats are their bit patterns and
the conversions between them are parameters; rational numbers are left out; a long double is 16
bytes, all of them written; Lisp functions called to convert values have no side effects; garbage
collection is left out.  `FFI_TYPE_INT` has no type that Lisp can name.
-/

namespace Rep.Ffi

/-- The basic types that have names in Lisp (ffi.c:946-960, 981-993). -/
inductive Prim where
  | void | u8 | s8 | u16 | s16 | u32 | s32 | u64 | s64 | float | double | longdouble | pointer
  deriving DecidableEq, Repr

/-- Lisp values.  `int` is any integer, `flo` a float by its 64 bits, `str` a string by the address
of its characters, `other 0` the undefined value. -/
inductive Value where
  | int (z : Int)
  | flo (bits : Nat)
  | str (addr : Nat)
  | vec (elems : List Value)
  | cons (car cdr : Value)
  | nil
  | other (n : Nat)
  deriving Repr

inductive Out (α : Type) where
  | ok (a : α)
  /-- an error is signalled -/
  | err
  /-- undefined behaviour -/
  | ub
  deriving Repr

def Out.bind {α β : Type} : Out α → (α → Out β) → Out β
  | .ok a, f => f a
  | .err, _ => .err
  | .ub, _ => .ub

/-- The conversions of the machine and the functions of Lisp, by their addresses. -/
structure Env where
  /-- `(long) d` -/
  toLong : Nat → Int
  /-- `(double) i` -/
  ofInt : Int → Nat
  /-- `(float) d` -/
  narrow : Nat → Nat
  /-- `(double) f` for a float -/
  widen : Nat → Nat
  /-- `(long double) d` -/
  extend : Nat → Nat
  /-- `(double) l` for a long double -/
  reduce : Nat → Nat
  /-- `rep_call_lisp1`: none is an error -/
  call : Nat → Value → Option Value

/-! ### memory -/

abbrev Mem := Nat → Nat

/-- `n` bytes of a number, the lowest first. -/
def le : Nat → Nat → List Nat
  | 0, _ => []
  | k + 1, n => n % 256 :: le k (n / 256)

/-- The number in the bytes. -/
def unle : List Nat → Nat
  | [] => 0
  | b :: bs => b + 256 * unle bs

def store (m : Mem) (p : Nat) : List Nat → Mem
  | [] => m
  | b :: bs => store (fun a => if a = p then b else m a) (p + 1) bs

def load (m : Mem) (p : Nat) : Nat → List Nat
  | 0 => []
  | n + 1 => m p :: load m (p + 1) n

/-! ### numbers -/

/-- A conversion to an unsigned type of `w` bits. -/
def toUnsigned (w : Nat) (z : Int) : Nat := (z % 2 ^ w).toNat

/-- A conversion to a signed type of `w` bits from the bits. -/
def toSigned (w : Nat) (n : Nat) : Int := if n < 2 ^ (w - 1) then n else (n : Int) - 2 ^ w

/-- `mpz_get_si`, which is the identity on numbers that fit (numbers.c:603-636): the low 63 bits with
the sign of the number. -/
def getSi (z : Int) : Int :=
  if 0 ≤ z then ((z.natAbs % 2 ^ 63 : Nat) : Int) else - (1 + (((z.natAbs - 1) % 2 ^ 63 : Nat) : Int))

/-- `rep_get_long_int` (numbers.c:602-634), also `rep_get_longlong_int` (numbers.c:727-731).
Anything that is not a number gives 0. -/
def getLong (E : Env) : Value → Int
  | .int z => getSi z
  | .flo b => E.toLong b
  | .cons (.int a) (.int b) =>
      (BitVec.ofInt 64 a ||| (BitVec.ofInt 64 b <<< 24)).toInt
  | _ => 0

/-- `rep_get_long_uint` (numbers.c:569-600); fixnums have 62 bits, for other integers
`mpz_get_ui` gives the low bits of the absolute value. -/
def getUlong (E : Env) : Value → Nat
  | .int z => if -2 ^ 61 ≤ z ∧ z < 2 ^ 61 then toUnsigned 64 z else z.natAbs % 2 ^ 64
  | .flo b => toUnsigned 64 (E.toLong b)
  | .cons (.int a) (.int b) =>
      (BitVec.ofInt 64 a ||| (BitVec.ofInt 64 b <<< 24)).toNat
  | _ => 0

/-- `rep_get_float` (numbers.c:754-780). -/
def getFloat (E : Env) : Value → Nat
  | .int z => E.ofInt z
  | .flo b => b
  | _ => 0

/-! ### types -/

/-- Size in `ffi_type` (libffi; `void` has size 1). -/
def primSize : Prim → Nat
  | .void => 1
  | .u8 => 1 | .s8 => 1
  | .u16 => 2 | .s16 => 2
  | .u32 => 4 | .s32 => 4
  | .u64 => 8 | .s64 => 8
  | .float => 4 | .double => 8 | .longdouble => 16
  | .pointer => 8

/-- Alignment in `ffi_type` (libffi). -/
def primAlign : Prim → Nat := primSize

/-- `ALIGN` (ffi.c:77-79) for powers of two; it gives 0 for an alignment of 0. -/
def alignUp (v a : Nat) : Nat := (v + a - 1) / a * a

/-- The address of an `ffi_type`: one of libffi's, or the one inside the structure with a number. -/
inductive Ptr where
  | prim (p : Prim)
  | own (i : Nat)
  deriving DecidableEq, Repr

/-- `rep_ffi_type`, `rep_ffi_struct`, `rep_ffi_alias` (ffi.c:101-127).  An alias copies the
`ffi_type` of its base; functions are given by their addresses. -/
inductive Entry where
  | prim (p : Prim)
  | struct (ids : List Nat) (size align : Nat)
  | named (base : Nat) (type : Ptr) (size align : Nat) (pred convIn convOut : Nat)
  deriving DecidableEq, Repr

abbrev Table := List Entry

/-- The field `type`; `i` is the number that a structure has or gets. -/
def Entry.type (i : Nat) : Entry → Ptr
  | .prim p => .prim p
  | .struct _ _ _ => .own i
  | .named _ t _ _ _ _ _ => t

/-- `type->size`. -/
def Entry.size : Entry → Nat
  | .prim p => primSize p
  | .struct _ s _ => s
  | .named _ _ s _ _ _ _ => s

/-- `type->alignment`. -/
def Entry.align : Entry → Nat
  | .prim p => primAlign p
  | .struct _ _ a => a
  | .named _ _ _ a _ _ _ => a

/-- `ffi_types_equal_p` (ffi.c:157-206): the same `ffi_type` is enough. -/
def equalP (i : Nat) (a : Entry) (j : Nat) (b : Entry) : Bool :=
  match a, b with
  | .prim p, .prim q => p = q
  | .struct is _ _, .struct js _ _ => a.type i = b.type j || is = js
  | .named b1 t1 _ _ p1 i1 o1, .named b2 t2 _ _ p2 i2 o2 =>
      t1 = t2 || (b1 = b2 && p1 = p2 && i1 = i2 && o1 = o2)
  | _, _ => false

/-- The first entry equal to `e`, from number `j` on. -/
def findEqual (i : Nat) (e : Entry) : Nat → Table → Option Nat
  | _, [] => none
  | j, b :: bs => if equalP i e j b then some j else findEqual i e (j + 1) bs

/-- `ffi_alloc_type` (ffi.c:231-259). -/
def allocType (T : Table) (e : Entry) : Table × Nat :=
  match findEqual T.length e 0 T with
  | some j => (T, j)
  | none => (T ++ [e], T.length)

/-- The loop over the fields in `Fffi_struct` (ffi.c:587-592): size and alignment. -/
def layout : List (Nat × Nat) → Nat → Nat → Nat × Nat
  | [], size, align => (size, align)
  | (s, a) :: rest, size, align => layout rest (alignUp size a + s) (max align a)

/-- Size and alignment of entries. -/
def sizes (T : Table) (ids : List Nat) : List (Nat × Nat) :=
  ids.map fun i => match T[i]? with
    | some e => (e.size, e.align)
    | none => (0, 0)

/-- `ffi-struct` (ffi.c:541-595), with the fields in a vector. -/
def ffiStruct (T : Table) (ids : List Nat) : Out (Table × Nat) :=
  if ∀ i ∈ ids, i < T.length then
    .ok (allocType T (.struct ids (layout (sizes T ids) 0 0).1 (layout (sizes T ids) 0 0).2))
  else .err

/-- `ffi-type` (ffi.c:597-614). -/
def ffiType (T : Table) (base pred convIn convOut : Nat) : Out (Table × Nat) :=
  match T[base]? with
  | some e => .ok (allocType T (.named base (e.type base) e.size e.align pred convIn convOut))
  | none => .err

/-- The types at the start (ffi.c:981-993). -/
def initTable : Table :=
  [.prim .void, .prim .u8, .prim .s8, .prim .u16, .prim .s16, .prim .u32, .prim .s32, .prim .u64, .prim .s64,
   .prim .float, .prim .double, .prim .longdouble, .prim .pointer]

/-! ### values in memory -/

/-- The bytes that `rep_ffi_marshal` stores for a basic type (ffi.c:300-371). -/
def primBytes (E : Env) (v : Value) : Prim → List Nat
  | .void => []
  | .u8 => le 1 (toUnsigned 8 (getLong E v))
  | .s8 => le 1 (toUnsigned 8 (getLong E v))
  | .u16 => le 2 (toUnsigned 16 (getLong E v))
  | .s16 => le 2 (toUnsigned 16 (getLong E v))
  | .u32 => le 4 (toUnsigned 32 (getLong E v))
  | .s32 => le 4 (toUnsigned 32 (getLong E v))
  | .u64 => le 8 (toUnsigned 64 (getLong E v))
  | .s64 => le 8 (toUnsigned 64 (getLong E v))
  | .float => le 4 (E.narrow (getFloat E v))
  | .double => le 8 (getFloat E v)
  | .longdouble => le 16 (E.extend (getFloat E v))
  | .pointer => match v with
    | .str a => le 8 a
    | _ => le 8 (getUlong E v)

/-- The value that `rep_ffi_demarshal` reads for a basic type, and the next address
(ffi.c:430-498). -/
def primValue (E : Env) (m : Mem) (p : Nat) : Prim → Value × Nat
  | .void => (.other 0, p)
  | .u8 => (.int (unle (load m p 1)), p + 1)
  | .s8 => (.int (toSigned 8 (unle (load m p 1))), p + 1)
  | .u16 => (.int (unle (load m p 2)), p + 2)
  | .s16 => (.int (toSigned 16 (unle (load m p 2))), p + 2)
  | .u32 => (.int (unle (load m p 4)), p + 4)
  | .s32 => (.int (toSigned 32 (unle (load m p 4))), p + 4)
  | .u64 => (.int (toSigned 64 (unle (load m p 8))), p + 8)
  | .s64 => (.int (toSigned 64 (unle (load m p 8))), p + 8)
  | .float => (.flo (E.widen (unle (load m p 4))), p + 4)
  | .double => (.flo (unle (load m p 8)), p + 8)
  | .longdouble => (.flo (E.reduce (unle (load m p 16))), p + 16)
  | .pointer => (.int (unle (load m p 8)), p + 8)

/-- The loop over the fields of a structure in `rep_ffi_marshal` (ffi.c:373-404): field `i` of a
vector is read without a check of its length. -/
def marshalFields (f : Nat → Value → Mem → Nat → Out (Mem × Nat)) :
    List Nat → Value → Nat → Mem → Nat → Out (Mem × Nat)
  | [], _, _, m, p => .ok (m, p)
  | id :: ids, v, i, m, p => match v with
    | .vec l => match l[i]? with
      | some elt => (f id elt m p).bind fun r => marshalFields f ids v (i + 1) r.1 r.2
      | none => .ub
    | .cons a b => (f id a m p).bind fun r => marshalFields f ids b (i + 1) r.1 r.2
    | _ => .err

/-- `rep_ffi_marshal` (ffi.c:289-421).  Types refer to older types only, so that `fuel` is the
number of types. -/
def marshal (E : Env) (T : Table) : Nat → Nat → Value → Mem → Nat → Out (Mem × Nat)
  | 0, _, _, _, _ => .ub
  | fuel + 1, id, v, m, p => match T[id]? with
    | none => .ub
    | some (.prim q) => .ok (store m p (primBytes E v q), p + (primBytes E v q).length)
    | some (.struct ids _ _) => marshalFields (marshal E T fuel) ids v 0 m p
    | some (.named base _ _ _ _ convIn _) => match E.call convIn v with
      | some v => marshal E T fuel base v m p
      | none => .err

/-- The loop over the fields in `rep_ffi_demarshal` (ffi.c:500-519); the fields of the new vector
have no value. -/
def demarshalFields (f : Nat → Mem → Nat → Option Value → Out (Value × Mem × Nat)) :
    List Nat → List Value → Mem → Nat → Out (Value × Mem × Nat)
  | [], done, m, p => .ok (.vec done, m, p)
  | id :: ids, done, m, p => (f id m p none).bind fun r => demarshalFields f ids (done ++ [r.1]) r.2.1 r.2.2

/-- `rep_ffi_demarshal` (ffi.c:423-539).  `old` is the value that `*value` has before, none if it
has not been set.  For an alias this value is stored at the address and then converted; what is
in memory is not read. -/
def demarshal (E : Env) (T : Table) : Nat → Nat → Mem → Nat → Option Value → Out (Value × Mem × Nat)
  | 0, _, _, _, _ => .ub
  | fuel + 1, id, m, p, old => match T[id]? with
    | none => .ub
    | some (.prim q) => .ok ((primValue E m p q).1, m, (primValue E m p q).2)
    | some (.struct ids _ _) => demarshalFields (demarshal E T fuel) ids [] m p
    | some (.named base _ _ _ _ _ convOut) => match old with
      | none => .ub
      | some v => (marshal E T fuel base v m p).bind fun r =>
          match E.call convOut v with
          | some w => .ok (w, r.1, r.2)
          | none => .err

/-- `ffi-set!` (ffi.c:812-831): the new memory. -/
def ffiSet (E : Env) (T : Table) (m : Mem) (id addr : Nat) (v : Value) : Out Mem :=
  match T[id]? with
  | none => .err
  | some e => (marshal E T T.length id v m (alignUp addr e.align)).bind fun r => .ok r.1

/-- `ffi-get` (ffi.c:833-853): the value and the memory. -/
def ffiGet (E : Env) (T : Table) (m : Mem) (id addr : Nat) : Out (Value × Mem) :=
  match T[id]? with
  | none => .err
  | some e => (demarshal E T T.length id m (alignUp addr e.align) none).bind fun r => .ok (r.1, r.2.1)

/-- `ffi-new` (ffi.c:759-774): the number of bytes that are allocated. -/
def newSize (T : Table) (id count : Nat) : Out Nat :=
  match T[id]? with
  | none => .err
  | some e => .ok (e.size * count)

/-- The loop of `ffi-address-of` (ffi.c:803-807). -/
def addressLoop (size align : Nat) : Nat → Nat → Nat
  | 0, p => p
  | n + 1, p => addressLoop size align n (alignUp p align + size)

/-- `ffi-address-of` (ffi.c:788-810). -/
def addressOf (T : Table) (id addr idx : Nat) : Out Nat :=
  match T[id]? with
  | none => .err
  | some e => .ok (addressLoop e.size e.align idx addr)

/-! ### calls -/

/-- `rep_ffi_interface` (ffi.c:132-140). -/
structure Iface where
  ret : Nat
  args : List Nat
  argsSize : Nat
  deriving DecidableEq, Repr

/-- The size of the arguments in `ffi-interface` (ffi.c:676-680). -/
def argsSize (T : Table) : List Nat → Nat → Nat
  | [], n => n
  | i :: is, n => match T[i]? with
    | some e => argsSize T is ((if e.align > 1 then alignUp n e.align else n) + e.size)
    | none => argsSize T is n

/-- `ffi-interface` (ffi.c:630-694); `none` for the type of the result is the first type. -/
def ffiInterface (T : Table) (ret : Option Nat) (args : List Nat) : Out Iface :=
  if (ret.getD 0) < T.length ∧ ∀ i ∈ args, i < T.length then
    .ok { ret := ret.getD 0, args, argsSize := argsSize T args 0 }
  else .err

/-- The loop over the arguments in `ffi-apply` (ffi.c:723-742): the addresses of the arguments. -/
def applyArgs (E : Env) (T : Table) : List Nat → Value → Mem → Nat → Out (List Nat × Mem × Nat)
  | [], _, m, p => .ok ([], m, p)
  | id :: ids, v, m, p => match v with
    | .cons a b => (marshal E T T.length id a m p).bind fun r =>
        (applyArgs E T ids b r.1 r.2).bind fun q => .ok (p :: q.1, q.2.1, q.2.2)
    | _ => .err

/-- `ffi-apply` (ffi.c:696-757).  `base` is the address of the array of the arguments, `ret` that of
the array for the result; the function gets the memory and the addresses of its arguments, and
leaves its result at `ret`. -/
def ffiApply (E : Env) (T : Table) (iface : Iface) (m : Mem) (base ret : Nat) (callee : Mem → List Nat → Mem)
    (args : Value) : Out (Value × Mem) :=
  (applyArgs E T iface.args args m base).bind fun q =>
    let m := callee q.2.1 q.1
    match T[iface.ret]? with
    | none => .ub
    | some e =>
      if e.size ≠ 0 then
        (demarshal E T T.length iface.ret m ret (some (.other 0))).bind fun r => .ok (r.1, r.2.1)
      else .ok (.other 0, m)

end Rep.Ffi
