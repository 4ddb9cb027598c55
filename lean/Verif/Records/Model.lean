/-
Records (lisp/rep/data/records.jl) on top of datums (src/datums.c).
-/
import Verif.Lambda.Model

namespace Rep.Records

/-- Lisp values; `record i` is the i-th datum made. -/
inductive V
  | nil
  | sym (n : Nat)
  | other (n : Nat)
  | record (i : Nat)
  | cons (a b : V)
  deriving DecidableEq

def listV : List V → V
  | [] => .nil
  | a :: l => .cons a (listV l)

/-- What a variable is bound to, as a value. -/
def boundV : Lambda.Bound V → V
  | .val v => v
  | .nil => .nil
  | .list l => listV l
  | .null => .nil

/-- A datum whose value is a vector: the type, by its identity, and the items. -/
structure Datum where
  type : Nat
  items : List V

/-- Record types with their fields, and the datums.  Simplification: the vector that is a
record type is not changed, and datums are made by the functions below only. -/
structure St where
  types : List (List V)
  heap : List Datum

/-- Results of functions: a value, or an error. -/
inductive Res
  | val (v : V)
  | error
  deriving DecidableEq

/-- `field-index` (records.jl:89-94); the test comes before the check for the end, and
`(car ())` is nil. -/
def fieldIndex (field : V) : List V → Nat → Option Nat
  | [], i => if V.nil = field then some i else none
  | f :: fs, i => if f = field then some i else fieldIndex field fs (i + 1)

/-- `datum-ref` (datums.c:123-134): the items of a datum with this type. -/
def datumRef (st : St) (v : V) (rt : Nat) : Option (Nat × List V) :=
  match v with
  | .record i => match st.heap[i]? with
    | some d => if d.type = rt then some (i, d.items) else none
    | none => none
  | _ => none

/-- `field-ref` (records.jl:96-97), an accessor made by `record-accessor` (131-134). -/
def fieldRef (st : St) (rt : Nat) (index : Nat) (v : V) : Res :=
  match datumRef st v rt with
  | none => .error
  | some (_, items) => match items[index]? with
    | some x => .val x
    | none => .error

/-- `field-set` (records.jl:99-100), `record-modifier` (136-139). -/
def fieldSet (st : St) (rt : Nat) (index : Nat) (v x : V) : Res × St :=
  match datumRef st v rt with
  | none => (.error, st)
  | some (i, items) =>
    if index < items.length then
      (.val x, { st with heap := st.heap.set i ⟨rt, items.set index x⟩ })
    else (.error, st)

/-- `record-predicate` (records.jl:141-143). -/
def isRecord (st : St) (rt : Nat) (v : V) : Bool := (datumRef st v rt).isSome

/-- The loop in a constructor made by `record-constructor` (records.jl:107-115). -/
def initLoop (rt : Nat) (record : V) : List Nat → List V → St → Res × St
  | i :: is, a :: as, st => match fieldSet st rt i record a with
    | (.error, st) => (.error, st)
    | (.val _, st) => initLoop rt record is as st
  | _, _, st => (.val record, st)

def indices (fields : List V) : List V → Option (List Nat)
  | [] => some []
  | f :: fs => match fieldIndex f fields 0, indices fields fs with
    | some i, some is => some (i :: is)
    | _, _ => none

/-- `((record-constructor RT FIELDS) ARGS...)` (records.jl:84-85, 104-115). -/
def construct (st : St) (rt : Nat) (fs args : List V) : Res × St :=
  match st.types[rt]? with
  | none => (.error, st)
  | some fields =>
    match indices fields fs with
    | none => (.error, st)
    | some is =>
      initLoop rt (.record st.heap.length) is args
        { st with heap := st.heap ++ [⟨rt, List.replicate fields.length .nil⟩] }

/-! ### define-record-type -/

/-- A parameter `FIELD` or `(FIELD DEFAULT)`. -/
def isPar {Form : Type} (field : Nat) : Lambda.Item Form → Bool
  | .par s _ => s == field
  | _ => false

/-- `has-field-p` in `make-record-constructor` (records.jl:118-122). -/
def hasField {Form : Type} (items : List (Lambda.Item Form)) (tail : Option Nat) (field : Nat) : Bool :=
  items.any (isPar field) || tail == some field

/-- The names in the expansion that are not those of fields: `make-record-datum`,
`vector` and the name of the type. -/
structure Names where
  makeDatum : Nat
  vector : Nat
  type : Nat

/-- What the body of the constructor does. -/
inductive Out
  | made (v : V)
  /-- something else is called, or used for the type -/
  | captured
  /-- a variable that is not bound by the parameters -/
  | free

/-- The items of the vector: `FIELD` or nil for each (records.jl:123-129). -/
def items {Form : Type} (l : List (Lambda.Item Form)) (tail : Option Nat) (e : Lambda.Env V) :
    List Nat → Option (List V)
  | [] => some []
  | f :: fs =>
    let x := if hasField l tail f then (e.lookup f).map boundV else some .nil
    match x, items l tail e fs with
    | some x, some xs => some (x :: xs)
    | _, _ => none

/-- The constructor of `define-record-type` after its parameters have been bound:
`(make-record-datum (vector FIELD...) RT)` (records.jl:126-127). -/
def body {Form : Type} (n : Names) (l : List (Lambda.Item Form)) (tail : Option Nat)
    (fields : List Nat) (rt : Nat) (e : Lambda.Env V) (st : St) : Out × St :=
  if (e.lookup n.makeDatum).isSome || (e.lookup n.vector).isSome || (e.lookup n.type).isSome then (.captured, st)
  else match items l tail e fields with
    | none => (.free, st)
    | some xs => (.made (.record st.heap.length), { st with heap := st.heap ++ [⟨rt, xs⟩] })

end Rep.Records
