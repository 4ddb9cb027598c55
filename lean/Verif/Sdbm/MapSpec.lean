/-
The specification of a database: what each call returns and does to a map from byte
strings to byte strings.
-/
import Verif.Sdbm.Db

namespace Rep.Sdbm

abbrev Map := Bytes → Option Bytes

/-- The map with one key changed. -/
def upd (M : Map) (k : Bytes) (x : Option Bytes) : Map := fun k' => if k' = k then x else M k'

/-- The bytes of a page that some pairs need: two for the number of pairs, and for each
pair two offsets of two bytes, the key and the value. -/
def pageBytes : List (Bytes × Bytes) → Nat
  | [] => 2
  | kv :: l => 4 + kv.1.length + kv.2.length + pageBytes l

/-- There are pairs, under keys whose hashes end in the same ten bits as that of `k`, that
together with the new pair are too much for one page. -/
def Crowded (M : Map) (k v : Bytes) : Prop :=
  ∃ l : List (Bytes × Bytes), (l.map Prod.fst).Nodup ∧
    (∀ kv ∈ l, M kv.1 = some kv.2 ∧ hash kv.1 % 1024 = hash k % 1024) ∧ 1024 < pageBytes (l ++ [(k, v)])

/-- `Effect M ro c r M' ro'`: the call `c` on a database that holds the map `M`, open for
reading only if `ro`, may return `r` and leave the map `M'`. -/
def Effect (M : Map) (ro : Bool) : Cmd → Res → Map → Bool → Prop
  | .fetch k, r, M', ro' => r = .str (M k) ∧ M' = M ∧ ro' = ro
  | .store k v replace, r, M', ro' => ro' = ro ∧
      if k = [] ∨ ro = true ∨ k.length + v.length > 1008 ∨ (replace = false ∧ M k ≠ none) then r = .bool false ∧ M' = M
      else (r = .bool true ∧ M' = upd M k (some v)) ∨
        (r = .bool false ∧ M' = (if replace then upd M k none else M) ∧ Crowded M' k v)
  | .erase k, r, M', ro' => ro' = ro ∧
      if ro = true then r = .bool false ∧ M' = M else r = .bool (M k).isSome ∧ M' = upd M k none
  | .delete k, r, M', ro' => ro' = ro ∧
      if ro = true then r = .bool false ∧ M' = M else r = .bool (M (k ++ [0])).isSome ∧ M' = upd M (k ++ [0]) none
  | .firstkey, r, M', ro' => (∃ s, r = .str s) ∧ M' = M ∧ ro' = ro
  | .nextkey, r, M', ro' => (∃ s, r = .str s) ∧ M' = M ∧ ro' = ro
  | .reopen ro2, r, M', ro' => r = .bool true ∧ M' = M ∧ ro' = ro2

/-- The same for a history. -/
inductive Effects : Map → Bool → List Cmd → List Res → Map → Bool → Prop
  | nil (M : Map) (ro : Bool) : Effects M ro [] [] M ro
  | cons {M M' M'' : Map} {ro ro' ro'' : Bool} {c : Cmd} {r : Res} {cs : List Cmd} {rs : List Res} :
      Effect M ro c r M' ro' → Effects M' ro' cs rs M'' ro'' → Effects M ro (c :: cs) (r :: rs) M'' ro''

end Rep.Sdbm
