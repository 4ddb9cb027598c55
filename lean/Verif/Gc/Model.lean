/-
Model of the garbage collector (src/values.c), guardians (src/values.c), weak
references (src/weak-refs.c) and cons allocation (src/values.c).

Simplifications: memory is a list of cells and an address is an index; an address
given back to `malloc` is never used again (the cells of cons blocks are).  Static
(dumped) conses, vectors and closures do not exist in the default build
(src/repint.h:45) and are left out.  The cons cells of a guardian's two lists are
private to the guardian, so the lists are Lean lists and the marking of their cells
is left out.
-/
import Mathlib.Data.List.Nodup
import Mathlib.Logic.Function.Basic

namespace Rep.Gc

/-- A `repv`: NULL, a fixnum, or the address of a cell. -/
inductive Val where
  | null
  | int (n : Int)
  | ref (a : Nat)
  deriving DecidableEq

inductive Cell where
  /-- a slot of a cons block, in use or on the free list -/
  | cons (car cdr : Val)
  /-- `static`: a string of the C program (`DEFSTRING`) -/
  | string (static : Bool)
  | number
  | subr
  | funarg (name env struct fn : Val)
  /-- vectors, byte-code, symbols (name and next) and all types whose mark function
  marks these fields in this order (tuples, structures, ...) -/
  | fields (vs : List Val)
  | table (weak : Bool) (nodes : List (Val × Val)) (hashFun compareFun guardian : Val)
  | guardian (accessible inaccessible : List Val)
  | weakRef (v : Val)
  /-- freed -/
  | free

/-- The collector's state.  `slots` are the cells of all cons blocks, in the order of
`cons_sweep`; `consFree` is `rep_cons_freelist`, linked through the cdrs. -/
structure Heap where
  mem : List Cell
  marked : Nat → Bool
  slots : List Nat
  consFree : Val
  usedCons : Nat
  guardians : List Nat
  weakRefs : List Nat

/-- The address of `()`: a static cell whose mark bit is always set
(src/datums.c:163). -/
abbrev nil : Nat := 0

/-! ### Marking -/

/-- src/values.c:817 `rep_mark_value`: what is done for an unmarked cell: whether its
mark bit is set, and the values that are then marked, in order.  `none` is undefined
behaviour: a freed cell, or a closure of a fixnum, whose mark bit is looked at without
a test (src/values.c:903).  Tables: `table_mark` (src/tables.c:67), guardians:
`mark_guardian` (src/values.c:687), weak references have no mark function. -/
def visit : Cell → Option (Bool × List Val)
  | .cons car cdr => some (true, if cdr = .ref nil then [car] else [car, cdr])
  | .string static => some (!static, [])
  | .number => some (true, [])
  | .subr => some (false, [])
  | .funarg name env struct fn =>
      match fn with
      | .int _ => none
      | fn => some (true, [name, env, struct, fn])
  | .fields vs => some (true, vs)
  | .table weak nodes h c g =>
      some (true, nodes.flatMap (fun n => if weak then [n.2] else [n.1, n.2]) ++ [h, c, g])
  | .guardian _ inaccessible => some (true, inaccessible)
  | .weakRef _ => some (true, [])
  | .free => none

/-- How many cells are not marked. -/
def unmarked (mem : List Cell) (m : Nat → Bool) : Nat := ((List.range mem.length).filter fun a => !m a).length

theorem unmarked_lt {mem : List Cell} {m : Nat → Bool} {a : Nat} (ha : a < mem.length) (hm : m a = false) :
    unmarked mem (Function.update m a true) < unmarked mem m := by
  unfold unmarked
  have hsub : ((List.range mem.length).filter fun x => !(Function.update m a true) x) =
      ((List.range mem.length).filter fun x => !m x).erase a := by
    rw [List.Nodup.erase_eq_filter (List.nodup_range.filter _), List.filter_filter]
    refine List.filter_congr fun x hx => ?_
    by_cases hxa : x = a
    · subst hxa; simp [hm]
    · simp [Function.update_of_ne hxa, hxa]
  have hmem : a ∈ ((List.range mem.length).filter fun x => !m x) := by simp [ha, hm]
  rw [hsub, List.length_erase_of_mem hmem]
  have : 0 < ((List.range mem.length).filter fun x => !m x).length := List.length_pos_of_mem hmem
  omega

/-- src/rep_lisp.h:704 `rep_MARKVAL` and src/values.c:817 `rep_mark_value`: marking the
values of a list, one after the other.  The C stack of recursive calls is the list of
values still to be marked (it is taken to be large enough).  `none` is undefined
behaviour. -/
def mark (mem : List Cell) (m : Nat → Bool) : List Val → Option (Nat → Bool)
  | [] => some m
  | .null :: rest => mark mem m rest
  | .int _ :: rest => mark mem m rest
  | .ref a :: rest =>
      if hm : m a = true then mark mem m rest
      else
        match hc : mem[a]? with
        | none => none
        | some c =>
            match visit c with
            | none => none
            | some (false, _) => mark mem m rest
            | some (true, kids) => mark mem (Function.update m a true) (kids ++ rest)
termination_by todo => (unmarked mem m, todo.length)
decreasing_by
  all_goals simp_wf
  all_goals try (apply Prod.Lex.right; simp)
  apply Prod.Lex.left
  exact unmarked_lt (List.getElem?_eq_some_iff.mp hc).1 (by simpa using hm)

/-! ### Guardians -/

/-- src/values.c:706-733 one guardian in `run_guardians`: the accessible list is
divided; objects that are not marked are pushed on the inaccessible list and on
`changed`.  `none`: the mark bit of a fixnum is looked at. -/
def scanGuardian (m : Nat → Bool) : List Val → List Val → List Val → Option (List Val × List Val × List Val)
  | [], inacc, changed => some ([], inacc, changed)
  | .ref a :: rest, inacc, changed =>
      if m a then (scanGuardian m rest inacc changed).map fun r => (.ref a :: r.1, r.2.1, r.2.2)
      else scanGuardian m rest (.ref a :: inacc) (.ref a :: changed)
  | _ :: _, _, _ => none

/-- src/values.c:703 the loop of `run_guardians` over all guardians. -/
def scanGuardians (m : Nat → Bool) : List Nat → List Cell → List Val → Option (List Cell × List Val)
  | [], mem, changed => some (mem, changed)
  | g :: rest, mem, changed =>
      match mem[g]? with
      | some (.guardian acc inacc) =>
          match scanGuardian m acc inacc changed with
          | none => none
          | some (acc', inacc', changed') => scanGuardians m rest (mem.set g (.guardian acc' inacc')) changed'
      | _ => none

/-- src/weak-refs.c:62 `rep_scan_weak_refs`. -/
def scanWeakRefs (m : Nat → Bool) : List Nat → List Cell → List Nat → Option (List Cell × List Nat)
  | [], mem, kept => some (mem, kept)
  | r :: rest, mem, kept =>
      if m r then
        match mem[r]? with
        | some (.weakRef (.ref a)) =>
            if m a then scanWeakRefs m rest mem (r :: kept)
            else scanWeakRefs m rest (mem.set r (.weakRef (.ref nil))) (r :: kept)
        | some (.weakRef (.int _)) => scanWeakRefs m rest mem (r :: kept)
        | _ => none
      else scanWeakRefs m rest mem kept

/-! ### Sweeping -/

/-- src/values.c:518 `cons_sweep`: the cells of the blocks in order; the result is the
memory, the free list and the number of used cells. -/
def sweepCons (m : Nat → Bool) : List Nat → List Cell → Val → Nat → List Cell × Val × Nat
  | [], mem, free, used => (mem, free, used)
  | a :: rest, mem, free, used =>
      if m a then sweepCons m rest mem free (used + 1)
      else
        match mem[a]? with
        | some (.cons car _) => sweepCons m rest (mem.set a (.cons car free)) (.ref a) used
        | _ => sweepCons m rest mem (.ref a) used

/-- The sweep functions of the other types (src/values.c:340 `string_sweep`, 612
`vector_sweep`, 742 `sweep_guardians`, src/tuples.c:82 `rep_sweep_tuples`,
src/symbols.c:496 `funarg_sweep`, src/tables.c:103 `table_sweep`, ...): the cells that
are not marked are freed.  Static strings, subrs and `()` belong to no list. -/
def sweepCell (m : Nat → Bool) (a : Nat) (c : Cell) : Cell :=
  match c with
  | .cons car cdr => .cons car cdr
  | .string true => .string true
  | .subr => .subr
  | c => if m a || a == nil then c else .free

/-- src/values.c:955 `garbage-collect`, up to the call of `after-gc-hook`.  `roots` are
the values marked first (static roots, protected C variables, the call stack, ...), in
order.  The mark bits are cleared by the sweep functions, except that of `()`. -/
def collect (h : Heap) (roots : List Val) : Option Heap :=
  match mark h.mem h.marked roots with
  | none => none
  | some m1 =>
      match scanGuardians m1 h.guardians h.mem [] with
      | none => none
      | some (mem1, changed) =>
          match mark mem1 m1 changed with
          | none => none
          | some m2 =>
              match scanWeakRefs m2 h.weakRefs mem1 [] with
              | none => none
              | some (mem2, weak) =>
                  let (mem3, free, used) := sweepCons m2 h.slots mem2 .null 0
                  some
                    { mem := mem3.mapIdx (sweepCell m2)
                      marked := fun a => a == nil
                      slots := h.slots
                      consFree := free
                      usedCons := used
                      guardians := (h.guardians.filter m2).reverse
                      weakRefs := weak }

/-! ### Operations of the program -/

/-- src/values.c:459 `rep_allocate_cons`: a new block of `n + 1` cells, linked through
the cdrs, when the free list is empty. -/
def newBlock (n : Nat) (h : Heap) : Heap :=
  let base := h.mem.length
  { h with
    mem := h.mem ++ (List.range (n + 1)).map fun i =>
      .cons .null (if i = n then .null else .ref (base + i + 1))
    slots := (List.range (n + 1)).map (base + ·) ++ h.slots
    consFree := .ref base }

/-- src/values.c:486 `cons`; `n + 1` is the size of a block. -/
def cons (n : Nat) (h : Heap) (car cdr : Val) : Option (Heap × Nat) :=
  let h := if h.consFree = .null then newBlock n h else h
  match h.consFree with
  | .ref a =>
      match h.mem[a]? with
      | some (.cons _ next) =>
          some ({ h with mem := h.mem.set a (.cons car cdr), consFree := next, usedCons := h.usedCons + 1 }, a)
      | _ => none
  | _ => none

/-- src/values.c:664 `primitive-guardian-push`. -/
def guardianPush (h : Heap) (g : Nat) (v : Val) : Option Heap :=
  match h.mem[g]? with
  | some (.guardian acc inacc) => some { h with mem := h.mem.set g (.guardian (v :: acc) inacc) }
  | _ => none

/-- src/values.c:672 `primitive-guardian-pop`. -/
def guardianPop (h : Heap) (g : Nat) : Option (Heap × Val) :=
  match h.mem[g]? with
  | some (.guardian acc (v :: inacc)) => some ({ h with mem := h.mem.set g (.guardian acc inacc) }, v)
  | some (.guardian _ []) => some (h, .ref nil)
  | _ => none

/-- src/values.c:651 `make-primitive-guardian`. -/
def makeGuardian (h : Heap) : Heap × Nat :=
  ({ h with mem := h.mem ++ [.guardian [] []], guardians := h.mem.length :: h.guardians }, h.mem.length)

/-- src/weak-refs.c:36 `make-weak-ref`. -/
def makeWeakRef (h : Heap) (v : Val) : Heap × Nat :=
  ({ h with mem := h.mem ++ [.weakRef v], weakRefs := h.mem.length :: h.weakRefs }, h.mem.length)

/-- src/weak-refs.c:48 `weak-ref`. -/
def weakRefValue (h : Heap) (r : Nat) : Option Val :=
  match h.mem[r]? with
  | some (.weakRef v) => some v
  | _ => none

/-- A new object of any other type, with its fields. -/
def makeObject (h : Heap) (c : Cell) : Heap × Nat := ({ h with mem := h.mem ++ [c] }, h.mem.length)

/-- A change of the contents of an object: `rplaca`, `rplacd`, `aset`, `weak-ref-set`,
`table-set`, .... -/
def write (h : Heap) (a : Nat) (c : Cell) : Heap := { h with mem := h.mem.set a c }

end Rep.Gc
