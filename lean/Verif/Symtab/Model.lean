/-
Symbols and obarrays: src/symbols.c.

Strings are bytes; what a program does to the string that is the name of a symbol (it is shared, not copied) is not modelled, nor the collector.
-/
import Verif.NumText.Model

namespace Rep.Symtab

/-- What the `next` field of a symbol or an element of an obarray may be: `rep_NULL`, `OB_NIL` (src/symbols.c:80), a symbol. -/
inductive Link where
  | null
  | last
  | sym (s : Nat)
  deriving DecidableEq, Repr

/-- A string up to its first zero byte, which is all that `strcmp` and `hash` look at. -/
def cstr (s : List UInt8) : List UInt8 := s.takeWhile (· ≠ 0)

/-- A `char`, converted to `unsigned long`: it is signed. -/
def charToULong (c : UInt8) : UInt64 := if c.toNat < 128 then UInt64.ofNat c.toNat else UInt64.ofNat c.toNat - 256

/-- src/symbols.c:229 `hash` -/
def hash (s : List UInt8) : UInt64 := (cstr s).foldl (fun v c => v * 33 + charToULong c) 0

/-- The symbols (numbered in the order in which they are made) and the obarrays. -/
structure St where
  /-- how many symbols there are -/
  count : Nat := 0
  name : Nat → List UInt8 := fun _ => []
  next : Nat → Link := fun _ => .null
  /-- the flag `rep_SF_KEYWORD` -/
  keyword : Nat → Bool := fun _ => false
  /-- the lengths of the obarrays: 0 is the default obarray, 1 that of keywords -/
  size : Nat → Nat
  bucket : Nat → Nat → Link := fun _ _ => .last
  /-- src/symbols.c:1105 the counter of `gensym` -/
  counter : Nat := 0

/-- What a function returns. -/
inductive Res where
  | sym (s : Nat)
  | nil
  | bool (b : Bool)
  /-- an error is signalled -/
  | error
  /-- NULL, without an error -/
  | null
  /-- a null pointer is followed -/
  | crash
  /-- the loop does not end -/
  | hang
  deriving DecidableEq, Repr

/-- src/symbols.c:101 `make-symbol` -/
def makeSymbol (st : St) (name : List UInt8) : St × Nat :=
  ({ st with count := st.count + 1, name := fun i => if i = st.count then name else st.name i, next := fun i => if i = st.count then .null else st.next i,
             keyword := fun i => if i = st.count then false else st.keyword i }, st.count)

/-- src/symbols.c:265-270: the loop of `find-symbol`.  A walk over more symbols than there are is in a circle. -/
def findLoop (st : St) (name : List UInt8) : Nat → Link → Res
  | _, .null => .crash
  | _, .last => .nil
  | 0, .sym _ => .hang
  | k + 1, .sym s => if cstr name = cstr (st.name s) then .sym s else findLoop st name k (st.next s)

/-- The index of the chain, src/symbols.c:264, 294, 334 -/
def index (st : St) (ob : Nat) (name : List UInt8) : Nat := (hash name).toNat % st.size ob

/-- src/symbols.c:250 `find-symbol` -/
def findSymbol (st : St) (name : List UInt8) (ob : Nat) : Res :=
  if st.size ob = 0 then .nil else findLoop st name st.count (st.bucket ob (index st ob name))

/-- A chain is given a new head. -/
def St.setBucket (st : St) (ob i : Nat) (l : Link) : St := { st with bucket := fun o j => if o = ob ∧ j = i then l else st.bucket o j }

/-- The field `next` of a symbol is changed. -/
def St.setNext (st : St) (s : Nat) (l : Link) : St := { st with next := fun i => if i = s then l else st.next i }

/-- src/symbols.c:276 `intern-symbol` -/
def internSymbol (st : St) (s : Nat) (ob : Nat) : St × Res :=
  if st.next s ≠ .null then (st, .error)
  else if st.size ob = 0 then (st, .null)
  else
    let i := index st ob (st.name s)
    ((st.setNext s (st.bucket ob i)).setBucket ob i (.sym s), .sym s)

/-- src/symbols.c:301 `intern` -/
def intern (st : St) (name : List UInt8) (ob : Nat) : St × Res :=
  match findSymbol st name ob with
  | .nil => let r := makeSymbol st name; internSymbol r.1 r.2 ob
  | r => (st, r)

/-- src/symbols.c:337-346: the loop of `unintern` -/
def uninternLoop (s ob i : Nat) : Nat → Link → St → Option St
  | _, .null, _ => none
  | _, .last, st => some st
  | 0, .sym _, _ => none
  | k + 1, .sym x, st => uninternLoop s ob i k (st.next x) (if x = s then st else (st.setNext x (st.bucket ob i)).setBucket ob i (.sym x))

/-- src/symbols.c:321 `unintern`; the loop either ends or follows a null pointer or goes in a circle (both are taken for a crash) -/
def unintern (st : St) (s : Nat) (ob : Nat) : St × Res :=
  if st.size ob = 0 then (st, .null)
  else
    let i := index st ob (st.name s)
    match uninternLoop s ob i st.count (st.bucket ob i) (st.setBucket ob i .last) with
    | none => (st, .crash)
    | some st => (st.setNext s .null, .sym s)

/-- `%04d` -/
def pad4 (n : Nat) : List UInt8 :=
  let d := (NumText.natDigits 10 n).map fun c => UInt8.ofNat c.toNat
  List.replicate (4 - d.length) 48 ++ d

/-- The name that `gensym` gives, for a counter below 2^31 -/
def gensymName (n : Nat) : List UInt8 := 71 :: pad4 n

/-- src/symbols.c:1098 `gensym` -/
def gensym (st : St) : St × Nat := makeSymbol { st with counter := st.counter + 1 } (gensymName (st.counter + 1))

/-- src/symbols.c:1392 `make-keyword` -/
def makeKeyword (st : St) (s : Nat) : St × Res :=
  if st.keyword s then (st, .error)
  else
    match intern st (35 :: 58 :: st.name s) 1 with
    | (st, .sym k) => ({ st with keyword := fun i => if i = k then true else st.keyword i }, .sym k)
    | r => r

/-- What a program may do. -/
inductive Op where
  | makeSymbol (name : List UInt8)
  | gensym
  | find (name : List UInt8) (ob : Nat)
  | intern (name : List UInt8) (ob : Nat)
  | internSymbol (s ob : Nat)
  | unintern (s ob : Nat)
  | makeKeyword (s : Nat)
  | keywordp (s : Nat)

/-- One operation. -/
def step (st : St) : Op → St × Res
  | .makeSymbol name => ((makeSymbol st name).1, .sym (makeSymbol st name).2)
  | .gensym => ((gensym st).1, .sym (gensym st).2)
  | .find name ob => (st, findSymbol st name ob)
  | .intern name ob => intern st name ob
  | .internSymbol s ob => internSymbol st s ob
  | .unintern s ob => unintern st s ob
  | .makeKeyword s => makeKeyword st s
  | .keywordp s => (st, .bool (st.keyword s))

/-- Several operations, and what they return. -/
def run (st : St) : List Op → St × List Res
  | [] => (st, [])
  | op :: ops => let r := step st op; let q := run r.1 ops; (q.1, r.2 :: q.2)

end Rep.Symtab
