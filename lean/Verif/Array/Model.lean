/-
Strings and vectors: `aref`, `aset`, `length`, `elt`, `make-vector`, `vector`,
`make-string`, `substring`, `concat` and `copy-sequence` (src/lispcmds.c).
-/

namespace Rep.Arr

/-- Values: small integers, objects by address, symbols (0: `nil`). -/
inductive Val
  | int (z : Int)
  | ref (a : Nat)
  | sym (n : Nat)
  deriving DecidableEq

/-- Objects.  A vector has the length in its header and the memory after it; the last
item tells whether it is a byte-code object.  `const`: the static bit. -/
inductive Obj
  | str (bytes : List UInt8) (const : Bool)
  | vec (len : Nat) (elems : List Val) (const : Bool) (compiled : Bool)
  | cons (a d : Val)
  | other
  deriving DecidableEq

/-- The heap; address 0 is the constant empty string (src/values.c:217-222,
`null_string_const`). -/
abbrev Heap := List Obj

/-- What a function does: return a value, signal an error about an argument (0:
`setting-constant`), access memory outside of an object, or not return. -/
inductive Out
  | ok (v : Val)
  | err (arg : Nat)
  | ub
  | forever
  deriving DecidableEq

abbrev Res := Out × Heap

def obj (h : Heap) : Val → Option Obj
  | .ref a => h[a]?
  | _ => none

/-- The list of the elements of a chain of cells, `rep_list_length` and the loops
over lists; after more steps than there are objects a cell was met twice. -/
def listOf (h : Heap) : Nat → Val → Option (List Val)
  | 0, _ => none
  | n + 1, v => match obj h v with
    | some (.cons a d) => (listOf h n d).map (a :: ·)
    | _ => some []

def elements (h : Heap) (v : Val) : Option (List Val) := listOf h (h.length + 1) v

/-- A value stored in a byte. -/
def byte (z : Int) : UInt8 := UInt8.ofNat (z % 256).toNat

/-- `Faref` (lispcmds.c:898-922). -/
def aref (h : Heap) (array index : Val) : Res :=
  match index with
  | .int z =>
    if z < 0 then (.err 2, h)
    else match obj h array with
      | some (.str bs _) =>
        match bs[z.toNat]? with
        | some b => (.ok (.int b.toNat), h)
        | none => (.err 2, h)
      | some (.vec len es _ _) =>
        if z.toNat < len then
          match es[z.toNat]? with
          | some v => (.ok v, h)
          | none => (.ub, h)
        else (.err 2, h)
      | _ => (.err 1, h)
  | _ => (.err 2, h)

/-- `Faset` (lispcmds.c:859-896). -/
def aset (h : Heap) (array index new : Val) : Res :=
  match index with
  | .int z =>
    if z < 0 then (.err 2, h)
    else match array, obj h array with
      | .ref a, some (.str bs const) =>
        if const then (.err 0, h)
        else if z.toNat < bs.length then
          match new with
          | .int c => (.ok new, h.set a (.str (bs.set z.toNat (byte c)) const))
          | _ => (.err 3, h)
        else (.err 2, h)
      | .ref a, some (.vec len es const comp) =>
        if const then (.err 0, h)
        else if z.toNat < len then
          if z.toNat < es.length then
            (.ok new, h.set a (.vec len (es.set z.toNat new) const comp))
          else (.ub, h)
        else (.err 2, h)
      | _, _ => (.err 1, h)
  | _ => (.err 2, h)

/-- `Flength` (lispcmds.c:1078-1112). -/
def length (h : Heap) (v : Val) : Res :=
  if v = .sym 0 then (.ok (.int 0), h)
  else match obj h v with
    | some (.str bs _) => (.ok (.int bs.length), h)
    | some (.vec len _ _ _) => (.ok (.int len), h)
    | some (.cons _ _) => match elements h v with
      | some l => (.ok (.int l.length), h)
      | none => (.forever, h)
    | _ => (.err 1, h)

def alloc (h : Heap) (o : Obj) : Res := (.ok (.ref h.length), h ++ [o])

/-- `rep_string_dupn` (src/values.c:272-282).  Simplification: there is enough
memory. -/
def dupn (h : Heap) (bs : List UInt8) : Res := alloc h (.str bs false)

/-- The low 32 bits as a C `int`. -/
def int32 (z : Int) : Int := z.bmod (2 ^ 32)

/-- The bytes allocated for a vector, `int len = rep_VECT_SIZE(size)`
(src/rep_lisp.h:468, values.c `rep_make_vector`). -/
def vectBytes (size : Int) : Int := int32 (8 * (size - 1) + 24)

/-- `rep_VECT_LEN` after `rep_SET_VECT_LEN`: the shift is one of a C `int`
(rep_lisp.h:473-474).  The overflow is undefined; it is taken to wrap. -/
def vectLen (size : Int) : Nat := (int32 (size * 256) % 2 ^ 64).toNat / 256

/-- `rep_make_vector` followed by a loop storing the elements `es`, of which there are
`size`; a pointer to less memory than is stored to is undefined behaviour. -/
def makeVector (h : Heap) (es : List Val) (const compiled : Bool) : Res :=
  if vectBytes es.length = 8 * ((es.length : Int) - 1) + 24 then
    alloc h (.vec (vectLen es.length) es const compiled)
  else (.ub, h)

/-- `Fmake_vector` (lispcmds.c:825-847); `int len`. -/
def makeVectorOf (h : Heap) (size init : Val) : Res :=
  match size with
  | .int z =>
    if z < 0 then (.err 1, h)
    else if int32 z < 0 then (.ub, h)
    else makeVector h (List.replicate (int32 z).toNat init) false false
  | _ => (.err 1, h)

/-- `Fvector` (lispcmds.c:808-823). -/
def vector (h : Heap) (args : List Val) : Res := makeVector h args false false

/-- `Fmake_string` (lispcmds.c:924-943); `rep_MAX_STRING` is 2^56 - 1. -/
def makeString (h : Heap) (len init : Val) : Res :=
  match len with
  | .int z =>
    if z < 0 then (.err 1, h)
    else if z > 2 ^ 56 - 1 then (.err 0, h)
    else dupn h (List.replicate z.toNat (match init with | .int c => byte c | _ => 32))
  | _ => (.err 1, h)

/-- `Fsubstring` (lispcmds.c:945-969); `int slen`.  `end`: `nil` if not given. -/
def substring (h : Heap) (string start «end» : Val) : Res :=
  match obj h string with
  | some (.str bs _) =>
    match start, «end» with
    | .int s, .int e =>
      if s > int32 bs.length ∨ s < 0 then (.err 2, h)
      else if e > int32 bs.length ∨ e < s then (.err 3, h)
      else dupn h ((bs.drop s.toNat).take (e - s).toNat)
    | .int s, .sym 0 =>
      if s > int32 bs.length ∨ s < 0 then (.err 2, h)
      else dupn h ((bs.drop s.toNat).take (int32 bs.length - s).toNat)
    | .int _, _ => (.err 3, h)
    | _, _ => (.err 2, h)
  | _ => (.err 1, h)

/-- The bytes of the integers in a list or vector. -/
def chars (es : List Val) : List UInt8 :=
  es.filterMap fun v => match v with | .int z => some (byte z) | _ => none

/-- What an argument of `concat` adds to the length in the first pass, and the bytes it
writes in the second (lispcmds.c:991-1010, 1026-1066). -/
def part (h : Heap) (v : Val) : Option (Nat × List UInt8) :=
  match v with
  | .int z => some (1, [byte z])
  | _ => match obj h v with
    | some (.cons _ _) => (elements h v).map fun es => (es.length, chars es)
    | some (.str bs _) => some (bs.length, bs)
    | some (.vec len es _ false) => some (len, chars es)
    | _ => some (0, [])

def parts (h : Heap) : List Val → Option (List (Nat × List UInt8))
  | [] => some []
  | v :: vs => (part h v).bind fun p => (parts h vs).map (p :: ·)

/-- `Fconcat` (lispcmds.c:971-1076); `unsigned int length`. -/
def concat (h : Heap) (args : List Val) : Res :=
  match parts h args with
  | none => (.forever, h)
  | some ps =>
    let length := (ps.map Prod.fst).sum % 2 ^ 32
    let bytes := (ps.map Prod.snd).flatten
    if length = 0 then (.ok (.ref 0), h)
    else if length = 2 ^ 32 - 1 ∨ bytes.length > length then (.ub, h)
    else dupn h bytes

/-- The loop of `Fcopy_sequence` over a list: the cells it makes, the first at the
address `a`. -/
def cells : Nat → List Val → List Obj
  | _, [] => []
  | _, [x] => [.cons x (.sym 0)]
  | a, x :: xs => .cons x (.ref (a + 1)) :: cells (a + 1) xs

/-- `Fcopy_sequence` (lispcmds.c:1114-1158). -/
def copySequence (h : Heap) (v : Val) : Res :=
  if v = .sym 0 then (.ok (.sym 0), h)
  else match obj h v with
    | some (.cons _ _) => match elements h v with
      | some es => (.ok (.ref h.length), h ++ cells h.length es)
      | none => (.forever, h)
    | some (.vec _ es const compiled) => makeVector h es const compiled
    | some (.str bs _) => dupn h bs
    | _ => (.err 1, h)

end Rep.Arr
