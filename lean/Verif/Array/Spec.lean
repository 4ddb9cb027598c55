import Verif.Array.Model

/-
What the functions on arrays are to do, in terms of lists.
-/

namespace Rep.Arr

/-- The items of a string or a vector. -/
def items (h : Heap) (v : Val) : Option (List Val) :=
  match obj h v with
  | some (.str bs _) => some (bs.map fun b => .int b.toNat)
  | some (.vec _ es _ _) => some es
  | _ => none

/-- The value is the list of these elements, or a list of them with another tail. -/
inductive Chain (h : Heap) : Val → List Val → Prop
  | nil {v} : (∀ a d, obj h v ≠ some (.cons a d)) → Chain h v []
  | cons {v a d l} : obj h v = some (.cons a d) → Chain h d l → Chain h v (a :: l)

/-- The elements are characters: integers that fit a byte. -/
def AreBytes (es : List Val) (bs : List UInt8) : Prop :=
  es = bs.map fun b => .int b.toNat

/-- A character, a string, a list or a vector of characters, or `nil`, as text. -/
inductive Text (h : Heap) : Val → List UInt8 → Prop
  | char {b : UInt8} : Text h (.int b.toNat) [b]
  | str {v bs c} : obj h v = some (.str bs c) → Text h v bs
  | list {v a d es bs} : obj h v = some (.cons a d) → Chain h v es → AreBytes es bs →
      Text h v bs
  | vec {v n es c bs} : obj h v = some (.vec n es c false) → AreBytes es bs → Text h v bs
  | nil : Text h (.sym 0) []

/-- Every vector has the memory its header tells of. -/
def Good (h : Heap) : Prop :=
  ∀ n es c k, Obj.vec n es c k ∈ h → n = es.length ∧ n < 2 ^ 23

/-- A program's calls. -/
inductive Op
  | aref (a i : Val)
  | aset (a i v : Val)
  | length (v : Val)
  | makeVector (n init : Val)
  | vector (args : List Val)
  | makeString (n init : Val)
  | substring (s b e : Val)
  | concat (args : List Val)
  | copy (v : Val)

def exec (h : Heap) : Op → Res
  | .aref a i => Arr.aref h a i
  | .aset a i v => Arr.aset h a i v
  | .length v => Arr.length h v
  | .makeVector n i => makeVectorOf h n i
  | .vector args => Arr.vector h args
  | .makeString n i => Arr.makeString h n i
  | .substring s b e => Arr.substring h s b e
  | .concat args => Arr.concat h args
  | .copy v => copySequence h v

/-- Vectors of less than 2^23 elements; texts that, together, have a length below
2^32 - 1. -/
def Fits (h : Heap) : Op → Prop
  | .makeVector (.int z) _ => z < 2 ^ 23
  | .vector args => args.length < 2 ^ 23
  | .concat args => ∀ ps, parts h args = some ps → (ps.map Prod.fst).sum < 2 ^ 32 - 1
  | _ => True

/-- A history: every call that returns leaves the heap to the next one. -/
def runs (h : Heap) : List Op → List Out
  | [] => []
  | op :: ops => (exec h op).1 :: runs (exec h op).2 ops

def FitsAll (h : Heap) : List Op → Prop
  | [] => True
  | op :: ops => Fits h op ∧ FitsAll (exec h op).2 ops

end Rep.Arr
