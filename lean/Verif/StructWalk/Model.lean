import Mathlib.Logic.Function.Basic
import Mathlib.Data.List.Basic
/-!
# The bindings of a structure as a hash table, and walking over them

Models `lookup`, `lookup_or_add`, `remove_binding` (src/structures.c:494-590), `structure-define` (:864-897) and `structure-walk` (:1237-1271).

Simplifications: constants and exports are C50 and C51; bindings without a value don't occur. The array of buckets is a function on indices below its size.
-/
namespace Rep.StructWalk

/-- A symbol, by its address divided by 8, which is what is hashed (src/repint.h:160). -/
abbrev Sym := Nat

/-- A bucket: its nodes in the order of their `next` pointers. -/
abbrev Chain (V : Type) := List (Sym × V)

/-- structures.h: `buckets`, `total_buckets`, `total_bindings`. -/
structure Table (V : Type) where
  size : Nat := 0
  bk : Nat → Chain V := fun _ => []
  total : Nat := 0

variable {V σ : Type}

/-- structures.c:502-507: search of a bucket. -/
def get (c : Chain V) (v : Sym) : Option V := (c.find? (fun nd => nd.1 == v)).map Prod.snd

/-- structures.c:494-510 `lookup` -/
def lookup (t : Table V) (v : Sym) : Option V := if t.size = 0 then none else get (t.bk (v % t.size)) v

/-- `n->binding = value` on the node that `lookup` found (structures.c:884). -/
def setFirst (v : Sym) (x : V) : Chain V → Chain V
  | [] => []
  | nd :: c => if nd.1 = v then (v, x) :: c else nd :: setFirst v x c

/-- structures.c:577-588: unlinking of a node. -/
def removeFirst (v : Sym) : Chain V → Chain V
  | [] => []
  | nd :: c => if nd.1 = v then c else nd :: removeFirst v c

/-- structures.c:536-545: each node becomes the first of its new bucket. -/
def insertAll (m : Nat) : List (Sym × V) → (Nat → Chain V) → Nat → Chain V
  | [], b => b
  | nd :: r, b => insertAll m r (Function.update b (nd.1 % m) (nd :: b (nd.1 % m)))

/-- structures.c:528-549: twice as many buckets. -/
def grow (t : Table V) : Table V :=
  { t with size := t.size * 2, bk := insertAll (t.size * 2) ((List.range t.size).flatMap t.bk) (fun _ => []) }

/-- structures.c:518-549: making room before a node is added. -/
def room (t : Table V) : Table V :=
  let t := if t.size = 0 then { t with size := 8, bk := fun _ => [] } else t
  if t.total > t.size * 2 then grow t else t

/-- structures.c:551-558: a new node. -/
def addNode (t : Table V) (v : Sym) (x : V) : Table V :=
  { t with bk := Function.update t.bk (v % t.size) ((v, x) :: t.bk (v % t.size)), total := t.total + 1 }

/-- structures.c:876-890 `structure-define`, with `lookup_or_add` (:512-567). -/
def define (t : Table V) (v : Sym) (x : V) : Table V :=
  if (lookup t v).isSome then { t with bk := Function.update t.bk (v % t.size) (setFirst v x (t.bk (v % t.size))) }
  else addNode (room t) v x

/-- structures.c:571-590 `remove_binding`; the number of bindings is left as it is. -/
def remove (t : Table V) (v : Sym) : Table V :=
  if t.size = 0 then t else { t with bk := Function.update t.bk (v % t.size) (removeFirst v (t.bk (v % t.size))) }

/-- What programs do to the bindings: `structure-define`, `makunbound`. -/
inductive Op (V : Type)
  | define (v : Sym) (x : V)
  | remove (v : Sym)

def Op.run (t : Table V) : Op V → Table V
  | .define v x => StructWalk.define t v x
  | .remove v => StructWalk.remove t v

def Op.removes (x : Sym) : Op V → Bool
  | .remove y => y == x
  | .define _ _ => false

def run (t : Table V) (ops : List (Op V)) : Table V := ops.foldl Op.run t

/-- The function that is called for each binding: from the state of the program, the bindings, and its two arguments it gets a new state and what it does
to the bindings, or it exits by an error or throw. -/
abbrev Fun (σ V : Type) := σ → (Sym → Option V) → Sym → V → Option (σ × List (Op V))

/-- How a walk ends: normally; by an exit from the function; by using a node that was freed. The last is lack of steps. -/
inductive End (σ V : Type)
  | done (st : σ) (t : Table V)
  | exit (t : Table V)
  | freed
  | steps

/-- `n->next`, the node being that of symbol `x`. -/
def next (c : Chain V) (x : Sym) : Option Sym := ((c.dropWhile (fun nd => nd.1 != x)).tail).head?.map Prod.fst

def first (c : Chain V) : Option Sym := c.head?.map Prod.fst

/-- structures.c:1255-1267: the index, and the node `n` points to. Every symbol has at most one node; if it is removed by the function, the next `n->next`
reads freed memory. -/
def loop (f : Fun σ V) : Nat → Table V → σ → Nat → Option Sym → List (Sym × V) × End σ V
  | 0, _, _, _, _ => ([], .steps)
  | k + 1, t, st, i, none => if i + 1 < t.size then loop f k t st (i + 1) (first (t.bk (i + 1))) else ([], .done st t)
  | k + 1, t, st, i, some x =>
    match lookup t x with
    | none => ([], .freed)
    | some v =>
      match f st (lookup t) x v with
      | none => ([(x, v)], .exit t)
      | some (st', ops) =>
        if ops.any (Op.removes x) then ([(x, v)], .freed)
        else
          let t' := run t ops
          let r := loop f k t' st' i (next (t'.bk (x % t'.size)) x)
          ((x, v) :: r.1, r.2)

/-- `structure-walk`: the calls, and how it ends. -/
def walk (f : Fun σ V) (k : Nat) (t : Table V) (st : σ) : List (Sym × V) × End σ V :=
  if t.size = 0 then ([], .done st t) else loop f k t st 0 (first (t.bk 0))

end Rep.StructWalk
