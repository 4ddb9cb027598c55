/-
Model of hash tables (src/tables.c).
-/
import Mathlib.Data.List.Basic

namespace Rep.Tables

/-- src/tables.c:37 `node_struct`, without the link. -/
structure Node (K V : Type) where
  key : K
  value : V
  hash : Nat

/-- src/tables.c:44 `table_struct`: the chains of nodes, and `total_nodes`.
`total_buckets` is the number of chains; the hash and comparison functions are
parameters of the operations.  They are taken to be pure functions: a user function
that modifies the table while it is being searched is not modelled.  `hash` is the
`hash_value` (unsigned 64 bits) obtained from the function's result. -/
structure Table (K V : Type) where
  buckets : List (List (Node K V))
  totalNodes : Nat

variable {K V : Type}

/-- src/tables.c:233 `make-table`. -/
def make : Table K V := ⟨[], 0⟩

/-- src/tables.c:312 `hash_key_to_bin`. -/
def bin (t : Table K V) (hash : Nat) : Nat := hash % t.buckets.length

/-- src/tables.c:329 `lookup`: the node found, as its chain and position there. -/
def lookup (hash : K → Nat) (eqv : K → K → Bool) (t : Table K V) (key : K) : Option (Nat × Nat) :=
  if t.buckets.length = 0 then none
  else
    let hv := hash key
    let index := bin t hv
    (((t.buckets[index]?).getD []).findIdx? fun n => n.hash == hv && eqv key n.key).map (index, ·)

/-- The node at a place. -/
def nodeAt (t : Table K V) (p : Nat × Nat) : Option (Node K V) := ((t.buckets[p.1]?).getD [])[p.2]?

/-- src/tables.c:346 `table-ref`; `none` stands for the result nil. -/
def ref (hash : K → Nat) (eqv : K → K → Bool) (t : Table K V) (key : K) : Option V :=
  ((lookup hash eqv t key).bind (nodeAt t)).map (·.value)

/-- src/tables.c:360 `table-bound-p`. -/
def boundp (hash : K → Nat) (eqv : K → K → Bool) (t : Table K V) (key : K) : Bool :=
  (lookup hash eqv t key).isSome

/-- src/tables.c:434-435: link a node in front of a chain. -/
def push (buckets : List (List (Node K V))) (index : Nat) (n : Node K V) : List (List (Node K V)) :=
  buckets.set index (n :: (buckets[index]?).getD [])

/-- src/tables.c:397-431: a larger array of chains, into which the nodes are moved one
by one. -/
def grow (t : Table K V) : Table K V :=
  let oldSize := t.buckets.length
  let newSize := if oldSize = 0 then 31 else (oldSize + 1) * 2 - 1
  { t with
    buckets := t.buckets.flatten.foldl (fun bs n => push bs (n.hash % newSize) n) (List.replicate newSize []) }

/-- src/tables.c:375 `table-set`.  (The guardian of a weak table is in
`Verif/Tables/Weak.lean`.) -/
def set (hash : K → Nat) (eqv : K → K → Bool) (t : Table K V) (key : K) (value : V) : Table K V :=
  match lookup hash eqv t key with
  | none =>
      let n : Node K V := ⟨key, value, hash key⟩
      let t := { t with totalNodes := t.totalNodes + 1 }
      let t := if t.totalNodes ≥ 2 * t.buckets.length then grow t else t
      { t with buckets := push t.buckets (bin t n.hash) n }
  | some (i, j) =>
      { t with
        buckets := t.buckets.modify i fun chain => chain.modify j fun n => { n with value := value } }

/-- src/tables.c:443 `table-unset`; the Boolean is the result. -/
def unset (hash : K → Nat) (eqv : K → K → Bool) (t : Table K V) (key : K) : Table K V × Bool :=
  match lookup hash eqv t key with
  | none => (t, false)
  | some (i, j) =>
      match nodeAt t (i, j) with
      | none => (t, false)
      | some n =>
          -- the node is looked for, by address, in the chain of its stored hash
          if bin t n.hash = i then
            ({ buckets := t.buckets.modify i fun chain => chain.eraseIdx j, totalNodes := t.totalNodes - 1 }, true)
          else (t, false)

/-- src/tables.c:473 `table-walk` with a function that returns normally and leaves the
table alone: the pairs it is called with, in order. -/
def walk (t : Table K V) : List (K × V) :=
  t.buckets.flatMap fun chain => chain.map fun n => (n.key, n.value)

/-- src/tables.c:503 `table-size`. -/
def size (t : Table K V) : Nat := t.totalNodes

end Rep.Tables
