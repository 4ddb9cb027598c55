import Verif.Ffi.Model

/-
Specification vocabulary for the foreign function interface: C types, their layout, and the values
that they can hold.
-/

namespace Rep.Ffi

/-- C types made of basic types and structures. -/
inductive CType where
  | prim (p : Prim)
  | struct (fields : List CType)

/-- The next multiple of `a` from `v` on. -/
def roundUp (v a : Nat) : Nat := if v % a = 0 then v else v + (a - v % a)

mutual
/-- Alignment of a C type: that of the field with the largest. -/
def calign : CType → Nat
  | .prim p => primAlign p
  | .struct ts => caligns ts
def caligns : List CType → Nat
  | [] => 1
  | t :: ts => max (calign t) (caligns ts)
end

mutual
/-- Size of a C type: the fields each at its alignment, and the end at that of the whole. -/
def csize : CType → Nat
  | .prim p => primSize p
  | .struct ts => roundUp (cend ts 0) (caligns ts)
/-- The end of the last field. -/
def cend : List CType → Nat → Nat
  | [], n => n
  | t :: ts, n => cend ts (roundUp n (calign t) + csize t)
end

mutual
/-- The bytes of the basic types in a type, without padding. -/
def packed : CType → Nat
  | .prim .void => 0
  | .prim p => primSize p
  | .struct ts => packeds ts
def packeds : List CType → Nat
  | [] => 0
  | t :: ts => packed t + packeds ts
end

mutual
/-- Size of a type like that of C, but without the padding at the end of structures. -/
def bare : CType → Nat
  | .prim p => primSize p
  | .struct ts => bares ts 0
def bares : List CType → Nat → Nat
  | [], n => n
  | t :: ts, n => bares ts (roundUp n (calign t) + bare t)
end

/-- A type without padding. -/
def NoPadding (t : CType) : Prop := packed t = csize t

mutual
/-- No structure is empty. -/
def Proper : CType → Prop
  | .prim _ => True
  | .struct ts => ts ≠ [] ∧ Propers ts
def Propers : List CType → Prop
  | [] => True
  | t :: ts => Proper t ∧ Propers ts
end

/-- The bytes that represent a value of a basic type in C. -/
def cbytes (E : Env) : Prim → Value → Option (List Nat)
  | .u8, .int z => if 0 ≤ z ∧ z < 2 ^ 8 then some (le 1 z.toNat) else none
  | .s8, .int z => if -2 ^ 7 ≤ z ∧ z < 2 ^ 7 then some (le 1 (z % 2 ^ 8).toNat) else none
  | .u16, .int z => if 0 ≤ z ∧ z < 2 ^ 16 then some (le 2 z.toNat) else none
  | .s16, .int z => if -2 ^ 15 ≤ z ∧ z < 2 ^ 15 then some (le 2 (z % 2 ^ 16).toNat) else none
  | .u32, .int z => if 0 ≤ z ∧ z < 2 ^ 32 then some (le 4 z.toNat) else none
  | .s32, .int z => if -2 ^ 31 ≤ z ∧ z < 2 ^ 31 then some (le 4 (z % 2 ^ 32).toNat) else none
  | .u64, .int z => if 0 ≤ z ∧ z < 2 ^ 64 then some (le 8 z.toNat) else none
  | .s64, .int z => if -2 ^ 63 ≤ z ∧ z < 2 ^ 63 then some (le 8 (z % 2 ^ 64).toNat) else none
  | .float, .flo b => if E.widen (E.narrow b) = b then some (le 4 (E.narrow b)) else none
  | .double, .flo b => if b < 2 ^ 64 then some (le 8 b) else none
  | .longdouble, .flo b => if b < 2 ^ 64 then some (le 16 (E.extend b)) else none
  | .pointer, .int z => if 0 ≤ z ∧ z < 2 ^ 64 then some (le 8 z.toNat) else none
  | .void, .other 0 => some []
  | _, _ => none

mutual
/-- The memory at `a` holds the value as C lays it out. -/
def Holds (E : Env) (m : Mem) (a : Nat) : CType → Value → Prop
  | .prim p, w => ∃ bs, cbytes E p w = some bs ∧ load m a bs.length = bs
  | .struct ts, w => ∃ ws, w = .vec ws ∧ HoldsAll E m a ts 0 ws
def HoldsAll (E : Env) (m : Mem) (a : Nat) : List CType → Nat → List Value → Prop
  | [], _, ws => ws = []
  | t :: ts, off, ws => ∃ w ws', ws = w :: ws' ∧ Holds E m (a + roundUp off (calign t)) t w ∧
      HoldsAll E m a ts (roundUp off (calign t) + csize t) ws'
end

/-- The elements of a vector or list. -/
def elems : Value → List Value
  | .vec l => l
  | .cons a b => match b with
    | .vec _ => [a]
    | b => a :: elems b
  | _ => []

/-- A value of a basic type, given as `v`, is read as this.  Strings stand for their addresses,
integers for floats. -/
def readAs (E : Env) (lim : Int) : Prim → Value → Option Value
  | .void, _ => some (.other 0)
  | .u64, .int z => if 0 ≤ z ∧ z < lim then some (.int z) else none
  | .pointer, .str a => if a < 2 ^ 64 then some (.int a) else none
  | .double, .int z => some (.flo (E.ofInt z))
  | p, v => (cbytes E p v).map fun _ => v

mutual
/-- What is read after `v` was stored in a variable of type `t`, if the type can hold it.  Unsigned
integers of 64 bits have to be less than `lim`, in C 2^64. -/
def canon (E : Env) (lim : Int) : CType → Value → Option Value
  | .prim p, v => readAs E lim p v
  | .struct ts, v => (canons E lim ts (elems v)).map .vec
def canons (E : Env) (lim : Int) : List CType → List Value → Option (List Value)
  | [], vs => if vs.isEmpty then some [] else none
  | t :: ts, vs => match vs with
    | [] => none
    | v :: vs => (canon E lim t v).bind fun w => (canons E lim ts vs).map fun ws => w :: ws
end

mutual
/-- Number `id` of the table is the C type. -/
def Den (T : Table) (id : Nat) : CType → Prop
  | .prim p => T[id]? = some (.prim p)
  | .struct ts => ∃ ids s a, T[id]? = some (.struct ids s a) ∧ Dens T ids ts
def Dens (T : Table) (ids : List Nat) : List CType → Prop
  | [] => ids = []
  | t :: ts => ∃ i is, ids = i :: is ∧ Den T i t ∧ Dens T is ts
end

/-- The tables that programs make. -/
inductive Reachable : Table → Prop where
  | init : Reachable initTable
  | struct {T T' ids id} : Reachable T → ffiStruct T ids = .ok (T', id) → Reachable T'
  | named {T T' b p i o id} : Reachable T → ffiType T b p i o = .ok (T', id) → Reachable T'

/-- A list of Lisp. -/
def listOf : List Value → Value
  | [] => .nil
  | v :: vs => .cons v (listOf vs)

/-- What is known about the conversions of floats. -/
structure EnvOk (E : Env) : Prop where
  narrow : ∀ b, E.narrow b < 2 ^ 32
  ofInt : ∀ z, E.ofInt z < 2 ^ 64
  extend : ∀ b, E.extend b < 2 ^ 128
  reduce : ∀ b, b < 2 ^ 64 → E.reduce (E.extend b) = b

end Rep.Ffi
